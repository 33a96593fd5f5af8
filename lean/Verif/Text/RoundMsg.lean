import Verif.Text.RoundTrip
import Verif.Dyn.Keep
/-!
A printed message reads back alike: values, map entries and messages, by induction on the
depth.
-/
set_option autoImplicit false
namespace Verif.Text
open Verif.Wire Verif.Dyn Verif.Pool

/-- Under what conditions text round-trips: a well-formed schema with the names `protoc`
accepts, the standard library's floats, unknown fields left out, and no `Any` expanded. -/
structure RoundCtx (env : TEnv) (S : Schema) (o : FOpts) : Prop where
  wf : S.wf = true
  names : textWf S = true
  floats : FloatSpec env
  enums : NamesEnums env
  skip : o.skipUnknown = true
  any : o.expandAny = false ∨ ∀ md ∈ S.msgs, md.name ≠ anyName

/-- An expanded `Any` reads back, if `P` holds of it. -/
def AnyReads (env : TEnv) (S : Schema) (o : FOpts) (P : DynMsg → Prop) (pay : Payloads) : Prop :=
  ∀ (md : MsgDesc) (d : Nat) (fs : FieldSet) (url : List Char) (body : DynMsg) (k ind K : Nat) (s r : List Char),
    o.expandAny = true → Conf S ⟨d, fs⟩ md → P ⟨d, fs⟩ → asAny S md ⟨d, fs⟩ = some (some (url, body)) →
    fmtVal env S o k ind body.toValue none = some s → k ≤ K → BTail env.parse64 r →
    ∃ gs, Fields (parseField env S (parseMsg env S K) md d) []
      (lex env.parse64 ('[' :: (url ++ (']' :: fieldValue o body.toValue s)) ++ r)) gs (lex env.parse64 r) ∧
      AlikeBy S pay (.msg d fs) (.msg d gs)

/-- The same with `Any` expanded: `P` is asked of every message, `pay` says when messages that carry
others as bytes are alike. -/
structure TextCtx (env : TEnv) (S : Schema) (o : FOpts) (P : DynMsg → Prop) (pay : Payloads) : Prop where
  wf : S.wf = true
  names : textWf S = true
  floats : FloatSpec env
  enums : NamesEnums env
  skip : o.skipUnknown = true
  any : AnyReads env S o P pay

/-- Every `float` in the value survives. -/
abbrev textVal : Value → Prop := keepVal textF32 (fun _ => True)
/-- Every `float` in the fields survives. -/
abbrev textSlots : List (Nat × Slot) → Prop := keepSlots textF32 (fun _ => True)

theorem scalarText_of {P : DynMsg → Prop} {v : Value} (h : keepVal textF32 P v) : scalarText v := by
  cases v <;> first | exact h | trivial

theorem scalarText_key (k : MapKey) : scalarText k.toValue := by
  cases k <;> trivial

/-- Values of singular fields printed at depth `k` read back. -/
def ValOk (env : TEnv) (S : Schema) (o : FOpts) (P : DynMsg → Prop) (pay : Payloads) (k : Nat) : Prop :=
  ∀ (ind : Nat) (f : FieldDesc) (v : Value) (s : List Char), f.card ≠ .repeated → confVal S f v = true →
    keepVal textF32 P v → fmtVal env S o k ind v (some f.kind) = some s → ∀ K, k ≤ K →
    Reads env.parse64 (parseVal env S (parseMsg env S K) f.kind) (AlikeBy S pay) v s

theorem key_scalar {env : TEnv} {S : Schema} (kind : Option Kind) (k : MapKey) :
    fmtScalar env S kind k.toValue = some (fmtKey k) := by
  cases k <;> rfl

theorem key_not_msg (k : MapKey) (d : Nat) (fs : List (Nat × Slot)) : k.toValue ≠ .msg d fs := by
  cases k <;> exact nofun

theorem keyKind {S : Schema} {i : Nat} {kd vd : FieldDesc} (h : EntryOk S i kd vd) :
    kd.kind.isMessage = false := by
  obtain ⟨-, -, -, k0, h0⟩ := h.key
  cases hk : kd.kind <;> first | rfl | (rw [hk] at h0; cases h0)

theorem noSiblings {md : MsgDesc} {f : FieldDesc} (h : f.oneof = none) :
    siblings md f = [] ∧ oneofMembers md f = [] := by
  simp [siblings, oneofMembers, h]

/-- The text of a map entry, taken apart. -/
theorem fmtEntry_parts {o : FOpts} {ind : Nat} {val : Nat → Value → Option (List Char)} {k : MapKey}
    {v : Value} {s : List Char} (h : fmtEntry o ind val (k, v) = some s) :
    ∃ ind' x pre post, val ind' v = some x ∧
      s = '{' :: (pre ++ ("key".toList ++ (fieldValue o k.toValue (fmtKey k) ++
        (sepText o ind' ++ ("value".toList ++ (fieldValue o v x ++ post)))))) ∧
      (∀ c ∈ pre, cSpace c = true) ∧ (post = ['}'] ∨ ∃ n, post = newline n ++ ['}']) := by
  have hkv : fieldValue o k.toValue (fmtKey k) = ':' :: (pad o ++ fmtKey k) := by
    cases k <;> rfl
  simp only [fmtEntry] at h
  rw [hkv]
  split at h
  · rename_i hp
    obtain ⟨x, hx, rfl⟩ := Option.map_eq_some_iff.1 h
    refine ⟨_, x, newline (ind + 2), newline ind ++ ['}'], hx, ?_, ?_, .inr ⟨ind, rfl⟩⟩
    · simp only [sepText, pad, hp, if_true]
      simp
    · intro c hc
      rcases List.mem_cons.1 hc with rfl | hc
      · decide
      · rw [(List.mem_replicate.1 hc).2]; decide
  · rename_i hp
    obtain ⟨x, hx, rfl⟩ := Option.map_eq_some_iff.1 h
    refine ⟨_, x, [], ['}'], hx, ?_, (fun c hc => by cases hc), .inl rfl⟩
    simp only [sepText, pad, hp]
    simp

/-- A printed map entry reads back as an entry message with the key and an alike value. -/
theorem entry_reads {env : TEnv} {S : Schema} {o : FOpts} {P : DynMsg → Prop} {pay : Payloads} (hX : TextCtx env S o P pay) {k : Nat}
    (hV : ValOk env S o P pay k) {i : Nat} {kd vd : FieldDesc} (hE : EntryOk S i kd vd)
    (hm : S.isMapEntry i = true) {ind : Nat} {p : MapKey × Value} {s : List Char}
    (hk : keyOk kd.kind p.1 = true) (hv : confVal S vd p.2 = true) (hq : keepVal textF32 P p.2)
    (hs : fmtEntry o ind (fun ind v => fmtVal env S o k ind v (some vd.kind)) p = some s)
    {K : Nat} (hK : k < K) :
    Reads env.parse64 (parseVal env S (parseMsg env S K) (.message i)) (EntryFor S pay i) p s := by
  obtain ⟨key, v⟩ := p
  obtain ⟨h1, h2⟩ := mapKV_some hE.kv
  have hmd : ∃ md, S.msg? i = some md ∧ md.mapEntry = true := by
    unfold Schema.isMapEntry at hm
    cases hmd : S.msg? i with
    | none => rw [hmd] at hm; cases hm
    | some md => rw [hmd] at hm; exact ⟨md, rfl, hm⟩
  obtain ⟨md, hmd, hme⟩ := hmd
  have hNm := textWf_msg hX.names hmd
  have hen := hNm.entry hme
  simp only [entryNames, List.all_eq_true, Bool.and_eq_true, Bool.or_eq_true, Option.isNone_iff_eq_none,
    Bool.not_eq_true', bne_iff_ne, ne_eq, beq_iff_eq] at hen
  have hkdm : kd ∈ md.fields := by
    rw [field?_eq hmd] at h1; exact (getField_mem h1).1
  have hvdm : vd ∈ md.fields := by
    rw [field?_eq hmd] at h2; exact (getField_mem h2).1
  obtain ⟨hkw, hkn, hkc, -⟩ := hE.key
  obtain ⟨hvw, hvn, hvc⟩ := hE.val
  obtain ⟨⟨⟨hko, hkg⟩, hkname⟩, -⟩ := hen kd hkdm
  obtain ⟨⟨⟨hvo, hvg⟩, -⟩, hvname⟩ := hen vd hvdm
  have hkname : kd.name = "key".toList := by
    rcases hkname with h | h
    · exact absurd hkn h
    · exact h
  have hvname : vd.name = "value".toList := by
    rcases hvname with h | h
    · exact absurd hvn h
    · exact h
  have hfk : findField S md "key".toList = some (some kd) := hkname ▸ findField_name hNm.nodup hkdm hkg
  have hfv : findField S md "value".toList = some (some vd) := hvname ▸ findField_name hNm.nodup hvdm hvg
  intro r hr
  obtain ⟨ind', x, pre, post, hx, rfl, hpre, hpost⟩ := fmtEntry_parts hs
  have hbt : BTail env.parse64 (post ++ r) ∧ ∃ ts, lex env.parse64 (post ++ r) = .tok .rbrace :: ts ∧ ts = lex env.parse64 r := by
    rcases hpost with rfl | ⟨n, rfl⟩
    · exact ⟨BTail.brace r, _, lex_punct rfl (by decide), rfl⟩
    · rw [List.append_assoc]
      exact ⟨BTail.newline _ r, _, by rw [lex_newline]; exact lex_punct rfl (by decide), rfl⟩
  obtain ⟨hbt, _, hend, rfl⟩ := hbt
  cases K with
  | zero => omega
  | succ K =>
    -- the value
    have hvb : ∀ d fs, v = .msg d fs → ∃ t, x = '{' :: t := by
      rintro d fs rfl; exact fmtVal_msg_brace hx
    obtain ⟨w, hw, hA⟩ := hV ind' vd v x hvc hv hq hx K (by omega) _ hbt.tail
    -- the key
    have hkb : ∀ d fs, key.toValue = .msg d fs → ∃ t, fmtKey key = '{' :: t :=
      fun d fs h => absurd h (key_not_msg _ _ _)
    have hks : scalarOk kd.kind key.toValue = true := by
      rw [← keyOk_eq key (keyKind hE)]; exact hk
    obtain ⟨hsib, hmem⟩ := noSiblings (md := md) hko
    obtain ⟨hsib', hmem'⟩ := noSiblings (md := md) hvo
    have hposk : 0 < kd.number := by omega
    have hposv : 0 < vd.number := by omega
    -- store the key, then the value
    have F0 : Free [] (siblings md kd) (oneofMembers md kd) kd :=
      ⟨rfl, rfl, fun _ _ => rfl, fun _ _ => rfl⟩
    have hkparse : ∀ r, TailOk env.parse64 r → ∃ gs', parseFieldValue env S (parseMsg env S K) (siblings md kd)
        (oneofMembers md kd) kd [] (lex env.parse64 (fmtKey key ++ r)) = .ok (gs', lex env.parse64 r) ∧
        Upd [] kd key.toValue gs' := by
      intro r hr
      obtain ⟨kw, hkw, hAk⟩ := parseVal_scalar (pay := noPay) (sub := parseMsg env S K) hX.floats hX.enums
        (textWf_enum hX.names) hks (scalarText_key key) (key_scalar (env := env) (S := S) (some kd.kind) key) hr
      have : kw = key.toValue := by
        cases key <;> cases hAk <;> rfl
      subst this
      exact store_single hkc hposk F0 hkw
    have hval : ∀ gs1, Upd [] kd key.toValue gs1 → ∃ gs2, parseFieldValue env S (parseMsg env S K) (siblings md vd)
        (oneofMembers md vd) vd gs1 (lex env.parse64 (x ++ (post ++ r))) =
          .ok (gs2, lex env.parse64 (post ++ r)) ∧ Upd gs1 vd w gs2 := by
      intro gs1 hu
      refine store_single hvc hposv ⟨hu.sorted, ?_, ?_, ?_⟩ hw
      · rw [hu.get, if_neg (by omega)]; rfl
      · rw [hsib']; exact fun _ h => by cases h
      · rw [hmem']; exact fun _ h => by cases h
    have hstart : Starts env.parse64 ("value".toList ++ (fieldValue o v x ++ (post ++ r))) := by
      rw [Starts, lex_ident (by decide) (fieldValue_halts hvb _)]
      exact ⟨_, _, rfl, rfl⟩
    have hT := sep_tail o ind' hstart
    obtain ⟨gs1, hg1, hu1⟩ := hkparse _ hT
    obtain ⟨gs2, hg2, hu2⟩ := hval gs1 hu1
    obtain ⟨hs1, hp1⟩ := parse_item_field (md := md) (d := i) (o := o) (n := "key".toList) (by decide) hfk hkb hg1
    obtain ⟨-, hp2⟩ := parse_item_field (md := md) (d := i) (o := o) (n := "value".toList) (by decide) hfv hvb hg2
    rw [sep_parse o ind' hstart] at hp1
    rw [hbt.sep] at hp2
    refine ⟨.msg i gs2, ?_, w, ?_, hA⟩
    · have hF : Fields (parseField env S (parseMsg env S K) md i) []
          (lex env.parse64 ("key".toList ++ (fieldValue o key.toValue (fmtKey key) ++
            (sepText o ind' ++ ("value".toList ++ (fieldValue o v x ++ (post ++ r))))))) gs2
          (.tok .rbrace :: lex env.parse64 r) := by
        obtain ⟨t1, ts1, e1, ht1⟩ := hs1
        obtain ⟨t2, ts2, e2, ht2⟩ := hstart
        rw [e1] at hp1 ⊢
        refine .cons ht1 hp1 ?_
        rw [e2] at hp2 ⊢
        refine .cons ht2 hp2 ?_
        rw [hend]
        exact .nil
      have hb := hF.body (fun fs ts => parseField_good (parseMsg_good env S K) md i fs ts) rfl
        (Nat.lt_succ_self _)
      simp only [List.cons_append, List.append_assoc]
      rw [lex_punct (t := .lbrace) rfl (by decide), lex_spaces hpre]
      simp only [parseVal, parseMsg, hmd]
      simp only [Nat.succ_eq_add_one] at hb
      rw [hb]
      rfl
    · have e1 : SMap.get? gs2 1 = some (.val key.toValue) := by
        rw [hu2.get, if_neg (by omega), hu1.get, if_pos (by omega)]
      have e2 : SMap.get? gs2 2 = some (.val w) := by
        rw [hu2.get, if_pos (by omega)]
      simp only [unpack, entryGet, h1, h2, FieldSet.get, FieldSet.getValue, hkn, hvn, e1, e2,
        toMapKey_toValue]

/-- The value of a field of any cardinality is parsed and stored. -/
theorem value_stored {env : TEnv} {S : Schema} {o : FOpts} {P : DynMsg → Prop} {pay : Payloads} (hX : TextCtx env S o P pay) {k : Nat}
    (hV : ∀ j ≤ k, ValOk env S o P pay j) {f : FieldDesc} (hf : FieldWf S f) {v : Value}
    (hc : confVal S f v = true) (hq : keepVal textF32 P v) {ind : Nat} {s : List Char}
    (hs : fmtVal env S o k ind v (some f.kind) = some s) {K : Nat} (hK : k ≤ K) {sib : List Nat}
    {mem : List FieldDesc} {gs : FieldSet} (hF : Free gs sib mem f) {r : List Char}
    (hr : TailOk env.parse64 r) :
    ∃ gs' w, parseFieldValue env S (parseMsg env S K) sib mem f gs (lex env.parse64 (s ++ r)) =
      .ok (gs', lex env.parse64 r) ∧ AlikeBy S pay v w ∧ Upd gs f w gs' := by
  have hpos : 0 < f.number := hf.num.1
  by_cases hcard : f.card = .repeated
  · cases k with
    | zero => simp [fmtVal] at hs
    | succ k =>
      have hgood := parseVal_good (env := env) (S := S) (parseMsg_good env S K) f.kind
      cases v with
      | list vs =>
        simp only [confVal, Bool.and_eq_true] at hc
        simp only [fmtVal, fmtList] at hs
        obtain ⟨ss, hss, rfl⟩ := Option.map_eq_some_iff.1 hs
        have hp : Pairs (Reads env.parse64 (parseVal env S (parseMsg env S K) f.kind) (AlikeBy S pay)) vs ss :=
          (fmtAll_pairs hss).imp (fun v hv s hs =>
            hV k (by omega) ind f.elem v s elem_card ((confVals_iff vs).1 hc.2 v hv) (keepVals_mem hq hv) hs K (by omega))
        obtain ⟨ws, hw, hp⟩ := parseRep_reads (o := o) hgood (fun _ _ => parseVal_rbracket) hp r
        obtain ⟨gs', hg, hu⟩ := store_list hc.1 hpos hF hw
        exact ⟨gs', .list ws, hg, .list hp.length hp.get, hu⟩
      | map kvs =>
        simp only [confVal, Bool.and_eq_true] at hc
        obtain ⟨-, i, hki, hme⟩ := isMap_iff.1 hc.1
        obtain ⟨kd, vd, hE⟩ := Schema.wf_entry hX.wf hme
        have hc2 := hc.2
        simp only [hki, hE.kv, Bool.and_eq_true] at hc2
        obtain ⟨-, h2⟩ := mapKV_some hE.kv
        simp only [fmtVal, hki, mapValueKind, h2, fmtList] at hs
        obtain ⟨ss, hss, rfl⟩ := Option.map_eq_some_iff.1 hs
        have hp : Pairs (Reads env.parse64 (parseVal env S (parseMsg env S K) f.kind) (EntryFor S pay i)) kvs ss := by
          rw [hki]
          refine (fmtAll_pairs hss).imp (fun p hp s hs => ?_)
          obtain ⟨h1, h2⟩ := (confMap_iff kvs).1 hc2.2 p hp
          exact entry_reads hX (hV k (by omega)) hE hme h1 h2 (keepMap_mem hq hp) hs (by omega)
        obtain ⟨ws, hw, hp⟩ := parseRep_reads (o := o) hgood (fun _ _ => parseVal_rbracket) hp r
        obtain ⟨kws, hi, hpk⟩ := insertEntries_fresh hp hc2.1 [] (fun _ _ => rfl)
        obtain ⟨gs', hg, hu⟩ := store_map hc.1 hki hpos hF hw hi
        exact ⟨gs', .map kws, hg, alike_map hpk, hu⟩
      | _ => simp [confVal, hcard] at hc
  · obtain ⟨w, hw, hA⟩ := hV k (Nat.le_refl k) ind f v s hcard hc hq hs K hK r hr
    obtain ⟨gs', hg, hu⟩ := store_single hcard hpos hF hw
    exact ⟨gs', w, hg, hA, hu⟩

/-- The text `s` of an entry is parsed and stored. -/
def ItemReads (env : TEnv) (S : Schema) (pay : Payloads) (md : MsgDesc) (pf : FieldSet → List LTok → PR FieldSet)
    (e : Ent) (s : List Char) : Prop :=
  (∀ r, Starts env.parse64 (s ++ r)) ∧ ∀ gs r, SMap.sorted gs = true → SMap.get? gs e.f.number = none →
    (∀ n ∈ siblings md e.f, SMap.get? gs n = none) → TailOk env.parse64 r →
    ∃ gs' w, pf gs (lex env.parse64 (s ++ r)) = parseSep gs' (lex env.parse64 r) ∧ AlikeBy S pay e.v w ∧ Upd gs e.f w gs'

/-- Entries one after the other. -/
theorem items_read {env : TEnv} {S : Schema} {pay : Payloads} {md : MsgDesc} {pf : FieldSet → List LTok → PR FieldSet}
    (o : FOpts) (ind : Nat) {r : List Char} (hr : BTail env.parse64 r) {L : List Ent}
    {ss : List (List Char)} (h : Pairs (ItemReads env S pay md pf) L ss) :
    (L.map (·.f.number)).Nodup → (∀ e ∈ L, ∀ n ∈ siblings md e.f, ∀ e' ∈ L, e'.f.number ≠ n) →
    ∀ gs, SMap.sorted gs = true → (∀ e ∈ L, SMap.get? gs e.f.number = none) →
      (∀ e ∈ L, ∀ n ∈ siblings md e.f, SMap.get? gs n = none) →
      ∃ gs', Fields pf gs (lex env.parse64 (joinWith (sepText o ind) ss ++ r)) gs' (lex env.parse64 r) ∧
        (∀ e ∈ L, ∃ w, SMap.get? gs' e.f.number = some (.val w) ∧ AlikeBy S pay e.v w) ∧
        (∀ n, (∀ e ∈ L, e.f.number ≠ n) → SMap.get? gs' n = SMap.get? gs n) := by
  induction h with
  | nil =>
    intro _ _ gs _ _ _
    exact ⟨gs, .nil, (fun e he => by cases he), fun _ _ => rfl⟩
  | cons ha t ih =>
    rename_i e s L ss
    intro hnd hone gs hsort hfree hsib
    rw [List.map_cons, List.nodup_cons] at hnd
    have hnum : ∀ e' ∈ L, e'.f.number ≠ e.f.number := by
      intro e' he' heq
      exact hnd.1 (heq ▸ List.mem_map_of_mem (f := fun x : Ent => x.f.number) he')
    have hone' : ∀ e ∈ L, ∀ n ∈ siblings md e.f, ∀ e' ∈ L, e'.f.number ≠ n := fun a ha n hn b hb =>
      hone a (List.mem_cons_of_mem _ ha) n hn b (List.mem_cons_of_mem _ hb)
    -- what the parser sees after this entry
    have next : ∀ gs1 w, Upd gs e.f w gs1 →
        ∃ gs', Fields pf gs1 (lex env.parse64 (joinWith (sepText o ind) ss ++ r)) gs' (lex env.parse64 r) ∧
        (∀ e ∈ L, ∃ w, SMap.get? gs' e.f.number = some (.val w) ∧ AlikeBy S pay e.v w) ∧
        (∀ n, (∀ e ∈ L, e.f.number ≠ n) → SMap.get? gs' n = SMap.get? gs1 n) := by
      intro gs1 w hu
      refine ih hnd.2 hone' gs1 hu.sorted (fun e' he' => ?_) (fun e' he' n hn => ?_)
      · rw [hu.get, if_neg (hnum e' he')]
        exact hfree e' (List.mem_cons_of_mem _ he')
      · rw [hu.get, if_neg (fun h => hone e' (List.mem_cons_of_mem _ he') n hn e (by simp) h.symm)]
        exact hsib e' (List.mem_cons_of_mem _ he') n hn
    have finish : ∀ (r' : List Char) gs1 w, Upd gs e.f w gs1 → AlikeBy S pay e.v w →
        pf gs (lex env.parse64 (s ++ r')) = .ok (gs1, lex env.parse64 (joinWith (sepText o ind) ss ++ r)) →
        ∃ gs', Fields pf gs (lex env.parse64 (s ++ r')) gs' (lex env.parse64 r) ∧
        (∀ e' ∈ e :: L, ∃ w, SMap.get? gs' e'.f.number = some (.val w) ∧ AlikeBy S pay e'.v w) ∧
        (∀ n, (∀ e' ∈ e :: L, e'.f.number ≠ n) → SMap.get? gs' n = SMap.get? gs n) := by
      intro r' gs1 w hu hA hpf
      obtain ⟨gs', h1, h3, h4⟩ := next gs1 w hu
      obtain ⟨t, ts, e1, ht⟩ := ha.1 r'
      rw [e1] at hpf ⊢
      refine ⟨gs', .cons ht hpf h1, ?_, ?_⟩
      · intro e' he'
        rcases List.mem_cons.1 he' with rfl | he'
        · exact ⟨w, by rw [h4 _ hnum, hu.get, if_pos rfl], hA⟩
        · exact h3 e' he'
      · intro n hn
        rw [h4 n (fun e' he' => hn e' (List.mem_cons_of_mem _ he')), hu.get,
          if_neg (fun h => hn e (by simp) h.symm)]
    cases t with
    | nil =>
      obtain ⟨gs1, w, hpf, hA, hu⟩ := ha.2 gs r hsort (hfree e (by simp)) (hsib e (by simp)) hr.tail
      rw [hr.sep] at hpf
      obtain ⟨gs', h1, h2, h3⟩ := finish r gs1 w hu hA hpf
      exact ⟨gs', h1, h2, h3⟩
    | cons hb t =>
      rename_i e2 s2 L ss
      have e0 : joinWith (sepText o ind) (s :: s2 :: ss) ++ r =
          s ++ (sepText o ind ++ (joinWith (sepText o ind) (s2 :: ss) ++ r)) := by
        show s ++ (sepText o ind ++ joinWith (sepText o ind) (s2 :: ss)) ++ r = _
        simp
      -- the rest of the text starts a field, whatever is stored
      have hst2 : Starts env.parse64 (joinWith (sepText o ind) (s2 :: ss) ++ r) := by
        rw [joinWith_cons, List.append_assoc]
        exact hb.1 _
      obtain ⟨gs1, w, hpf, hA, hu⟩ := ha.2 gs _ hsort (hfree e (by simp)) (hsib e (by simp))
        (sep_tail o ind hst2)
      rw [sep_parse o ind hst2] at hpf
      rw [e0]
      obtain ⟨gs', h1, h2, h3⟩ := finish _ gs1 w hu hA hpf
      exact ⟨gs', h1, h2, h3⟩

theorem pairs_ents {Q : Ent → List Char → Prop} {P : Item → List Char → Prop} {its : List Item}
    {ss : List (List Char)} (h : Pairs P its ss) : (∀ it ∈ its, isUnknown it = false) →
    (∀ it ∈ its, ∀ e s, it.ent = some e → P it s → Q e s) → Pairs Q (its.filterMap Item.ent) ss := by
  induction h with
  | nil => intro _ _; exact .nil
  | cons h t ih =>
    rename_i it s its ss
    intro hu hq
    have ih := ih (fun x hx => hu x (List.mem_cons_of_mem _ hx))
      (fun x hx => hq x (List.mem_cons_of_mem _ hx))
    have h0 := hu it (by simp)
    cases it with
    | unknown u => cases h0
    | field f v => exact .cons (hq _ (by simp) _ _ rfl h) ih
    | ext f v => exact .cons (hq _ (by simp) _ _ rfl h) ih

theorem ents_filter (its : List Item) :
    (its.filter (fun i => !isUnknown i)).filterMap Item.ent = its.filterMap Item.ent := by
  induction its with
  | nil => rfl
  | cons it r ih =>
    cases it with
    | unknown u => exact ih
    | field f v => show _ :: _ = _ :: _; rw [ih]
    | ext f v => show _ :: _ = _ :: _; rw [ih]

/-- A listing of the items the printer goes through. -/
theorem items_listing {S : Schema} (hS : S.wf = true) {o : FOpts} {d : Nat} {md : MsgDesc} {fs : FieldSet}
    (hC : Conf S ⟨d, fs⟩ md) {its : List Item} (h : items o S md fs = some its) :
    Listing S d md fs (its.filterMap Item.ent) := by
  have hw := Schema.wf_msg hS hC.desc
  unfold items at h
  have hO : Order md (if o.indexOrder then md.fields.map (fun f => (f.number, f)) else md.fieldsByNumber) := by
    split
    · exact order_decl hw.nodup
    · exact order_num hw.nodup (fun f hf => (hw.fields f hf).num.1)
  split at h
  · rename_i a b ha hb
    cases h
    exact listing hS hC hO ha hb
  · cases h

/-- One item. -/
theorem item_reads {env : TEnv} {S : Schema} {o : FOpts} {P : DynMsg → Prop} {pay : Payloads} (hX : TextCtx env S o P pay) {k : Nat}
    (hV : ∀ j ≤ k, ValOk env S o P pay j) {d : Nat} {md : MsgDesc} {fs : FieldSet} (hC : Conf S ⟨d, fs⟩ md)
    (hq : keepSlots textF32 P fs) {L : List Ent} (hL : Listing S d md fs L) {it : Item} {e : Ent} (hit : it.ent = some e) (he : e ∈ L)
    {k' ind : Nat} {s : List Char} (hs : fmtItem S o k' ind (fmtVal env S o k ind) it = some s) {K : Nat}
    (hK : k ≤ K) (hlk : ∀ f v, it = .field f v → md.getField f.number = some f)
    (hlx : ∀ f v, it = .ext f v → md.getExtension f.number = some f) :
    ItemReads env S pay md (parseField env S (parseMsg env S K) md d) e s := by
  have hmd : S.msg? d = some md := hC.desc
  have hw := Schema.wf_msg hX.wf hmd
  have hNm := textWf_msg hX.names hmd
  have hkeep : ∀ e ∈ L, keepVal textF32 P e.v := fun e he =>
    listing_keep (Q := textF32) (by decide) hX.wf hmd hNm.plain hL hq he
  cases it with
  | unknown u => cases hit
  | field f v =>
    cases hit
    obtain ⟨hfm, -⟩ := getField_mem (hlk f v rfl)
    obtain ⟨l, hl, hid, hfind⟩ := findField_label hNm hfm
    simp only [fmtItem, hl] at hs
    cases hv : fmtVal env S o k ind v (some f.kind) with
    | none => simp [hv] at hs
    | some x =>
      simp only [hv, Option.some.injEq] at hs
      subst hs
      have hb : ∀ d fs, v = .msg d fs → ∃ t, x = '{' :: t := by
        rintro d fs rfl; exact fmtVal_msg_brace hv
      refine ⟨fun r => ?_, fun gs r hsort h1 h2 hr => ?_⟩
      · rw [List.append_assoc, Starts, lex_ident hid (fieldValue_halts hb r)]
        exact ⟨_, _, rfl, rfl⟩
      · have hF : Free gs (siblings md f) (oneofMembers md f) f := by
          refine ⟨hsort, h1, h2, fun g hg => ?_⟩
          unfold oneofMembers at hg
          cases ho : f.oneof with
          | none => rw [ho] at hg; cases hg
          | some o' =>
            rw [ho] at hg
            simp only [List.mem_filter, beq_iff_eq] at hg
            by_cases hn : g.number = f.number
            · rw [hn]; exact h1
            · exact h2 _ (mem_siblings.2 ⟨o', ho, g, hg.1, hg.2, hn, rfl⟩)
        obtain ⟨gs', w, hp, hA, hu⟩ := value_stored hX hV (hw.fields f hfm) (hL.conf _ he) (hkeep _ he) hv hK hF hr
        refine ⟨gs', w, ?_, hA, hu⟩
        rw [List.append_assoc]
        exact (parse_item_field hid hfind hb hp).2
  | ext f v =>
    cases hit
    obtain ⟨hfm, -⟩ := getExtension_mem (hlx f v rfl)
    have hdot := hNm.ext f hfm
    have hfind : MsgDesc.extByName md f.name = some f := find_name hNm.extNodup hfm
    simp only [fmtItem] at hs
    cases hv : fmtVal env S o k ind v (some f.kind) with
    | none => simp [hv] at hs
    | some x =>
      simp only [hv, Option.some.injEq] at hs
      subst hs
      have hb : ∀ d fs, v = .msg d fs → ∃ t, x = '{' :: t := by
        rintro d fs rfl; exact fmtVal_msg_brace hv
      refine ⟨fun r => ?_, fun gs r hsort h1 h2 hr => ?_⟩
      · simp only [List.cons_append, List.append_assoc]
        exact ⟨_, _, lex_punct (t := .lbracket) rfl (by decide), rfl⟩
      · have hF : Free gs [] [] f := ⟨hsort, h1, fun _ h => (by cases h), fun _ h => (by cases h)⟩
        obtain ⟨gs', w, hp, hA, hu⟩ := value_stored hX hV (hw.exts f hfm) (hL.conf _ he) (hkeep _ he) hv hK hF hr
        refine ⟨gs', w, ?_, hA, hu⟩
        simp only [List.cons_append, List.append_assoc]
        exact (parse_item_ext hdot hfind hb hp).2

theorem ent_ext {it : Item} {e : Ent} (h : it.ent = some e) :
    (∀ f v, it = .field f v → e = ⟨false, f, v⟩) ∧ (∀ f v, it = .ext f v → e = ⟨true, f, v⟩) := by
  cases it with
  | unknown u => cases h
  | field f v => cases h; exact ⟨fun _ _ h => (by cases h; rfl), fun _ _ h => (by cases h)⟩
  | ext f v => cases h; exact ⟨fun _ _ h => (by cases h), fun _ _ h => (by cases h; rfl)⟩

/-- The body of a printed message reads back alike. -/
theorem body_reads {env : TEnv} {S : Schema} {o : FOpts} {P : DynMsg → Prop} {pay : Payloads} (hX : TextCtx env S o P pay) {k : Nat}
    (hV : ∀ j ≤ k, ValOk env S o P pay j) {d : Nat} {md : MsgDesc} {fs : FieldSet} (hC : Conf S ⟨d, fs⟩ md)
    (hq : keepSlots textF32 P fs) {k' ind : Nat} {s : List Char} (hs : fmtFields S o k' ind (fmtVal env S o k ind) md fs = some s)
    {K : Nat} (hK : k ≤ K) {r : List Char} (hr : BTail env.parse64 r) :
    ∃ gs, Fields (parseField env S (parseMsg env S K) md d) [] (lex env.parse64 (s ++ r)) gs
      (lex env.parse64 r) ∧ AlikeBy S pay (.msg d fs) (.msg d gs) := by
  have hNm := textWf_msg hX.names hC.desc
  unfold fmtFields at hs
  cases hi : items o S md fs with
  | none => rw [hi] at hs; cases hs
  | some its =>
    have hL := items_listing hX.wf hC hi
    simp only [hi, hX.skip, if_true, fmtDelimited] at hs
    obtain ⟨ss, hss, rfl⟩ := Option.map_eq_some_iff.1 hs
    have hp : Pairs (ItemReads env S pay md (parseField env S (parseMsg env S K) md d)) (its.filterMap Item.ent) ss := by
      rw [← ents_filter]
      refine pairs_ents (fmtAll_pairs hss) (fun it hit => by simpa using (List.mem_filter.1 hit).2) ?_
      intro it hit e s he hfmt
      have hmem : e ∈ its.filterMap Item.ent := List.mem_filterMap.2 ⟨it, (List.mem_filter.1 hit).1, he⟩
      have hlook := hL.look e hmem
      refine item_reads hX hV hC hq hL he hmem hfmt hK ?_ ?_
      · intro f v h
        rw [(ent_ext he).1 f v h] at hlook
        exact hlook
      · intro f v h
        rw [(ent_ext he).2 f v h] at hlook
        exact hlook
    obtain ⟨gs, h1, h2, h3⟩ := items_read o ind hr hp hL.nodup hL.oneof [] rfl (fun _ _ => rfl) (fun _ _ _ _ => rfl)
    refine ⟨gs, h1, hL.alike hX.wf hC hNm.plain h2 (fun n hn v h => ?_)⟩
    rw [h3 n hn] at h
    cases h

theorem RoundCtx.ctx {env : TEnv} {S : Schema} {o : FOpts} (hX : RoundCtx env S o) :
    TextCtx env S o (fun _ => True) noPay := by
  refine ⟨hX.wf, hX.names, hX.floats, hX.enums, hX.skip, ?_⟩
  intro md d fs url body k ind K s r he hC _ ha
  rcases hX.any with h | h
  · rw [h] at he; cases he
  · unfold asAny at ha
    rw [if_pos (h md (List.mem_of_getElem? hC.desc))] at ha
    cases ha

/-- The same for a message that may be an `Any`. -/
theorem fmtMsg_reads {env : TEnv} {S : Schema} {o : FOpts} {P : DynMsg → Prop} {pay : Payloads}
    (hX : TextCtx env S o P pay) {k : Nat} (hV : ∀ j ≤ k, ValOk env S o P pay j) {d : Nat} {md : MsgDesc} {fs : FieldSet}
    (hC : Conf S ⟨d, fs⟩ md) (hp : P ⟨d, fs⟩) (hq : keepSlots textF32 P fs) {k' ind : Nat} {s : List Char}
    (hs : fmtMsg S o k' ind (fmtVal env S o k ind) md d fs = some s)
    {K : Nat} (hK : k ≤ K) {r : List Char} (hr : BTail env.parse64 r) :
    ∃ gs, Fields (parseField env S (parseMsg env S K) md d) [] (lex env.parse64 (s ++ r)) gs
      (lex env.parse64 r) ∧ AlikeBy S pay (.msg d fs) (.msg d gs) := by
  unfold fmtMsg at hs
  split at hs
  · cases hs
  · rename_i url body ha
    split at ha
    · rename_i he
      split at hs
      · rename_i t ht
        cases hs
        exact hX.any md d fs url body k ind K t r he hC hp ha ht hK hr
      · cases hs
    · cases ha
  · exact body_reads hX hV hC hq hs hK hr

/-- Values of every depth read back. -/
theorem valOk {env : TEnv} {S : Schema} {o : FOpts} {P : DynMsg → Prop} {pay : Payloads} (hX : TextCtx env S o P pay) (k : Nat) :
    ∀ j ≤ k, ValOk env S o P pay j := by
  induction k with
  | zero =>
    intro j hj ind f v s _ _ _ hs
    have : j = 0 := by omega
    subst this
    simp [fmtVal] at hs
  | succ k ih =>
    intro j hj
    by_cases hjk : j ≤ k
    · exact ih j hjk
    · have : j = k + 1 := by omega
      subst this
      intro ind f v s hc hv hq hs K hK r hr
      cases v with
      | msg d fs =>
        obtain ⟨-, hkind, hm⟩ := confMsg_of_confVal hv
        obtain ⟨md, hC⟩ := confMsg_iff.1 hm
        have hmd : S.msg? d = some md := hC.desc
        simp only [keepVal] at hq
        simp only [fmtVal, hmd] at hs
        cases hi : items o S md fs with
        | none => simp [hi] at hs
        | some its =>
          simp only [hi] at hs
          cases K with
          | zero => omega
          | succ K =>
            -- reading the body is enough
            have fin : ∀ body post, (∀ c ∈ post, cSpace c = true) → (∃ gs, Fields (parseField env S (parseMsg env S K) md d) []
                (lex env.parse64 (body ++ (post ++ ('}' :: r)))) gs (lex env.parse64 (post ++ ('}' :: r))) ∧
                  AlikeBy S pay (.msg d fs) (.msg d gs)) →
                ∃ w, parseVal env S (parseMsg env S (K + 1)) f.kind
                  (.tok .lbrace :: lex env.parse64 (body ++ (post ++ ('}' :: r)))) = .ok (w, lex env.parse64 r) ∧
                  AlikeBy S pay (.msg d fs) w := by
              rintro body post hpost ⟨gs, hF, hA⟩
              rw [lex_spaces hpost, lex_punct (t := .rbrace) rfl (by decide)] at hF
              have hb := hF.body (fun fs ts => parseField_good (parseMsg_good env S K) md d fs ts) rfl
                (Nat.lt_succ_self _)
              refine ⟨.msg d gs, ?_, hA⟩
              rw [hkind]
              simp only [parseVal, parseMsg, hmd]
              simp only [Nat.succ_eq_add_one] at hb
              rw [hb]
              rfl
            split at hs
            · rename_i hall
              cases hs
              have hnil : its.filterMap Item.ent = [] := by
                rw [List.filterMap_eq_nil_iff]
                intro it hit
                have := List.all_eq_true.1 hall it hit
                simp only [Bool.and_eq_true] at this
                cases it with
                | unknown u => rfl
                | field f v => cases this.2
                | ext f v => cases this.2
              have hL := items_listing hX.wf hC hi
              rw [hnil] at hL
              have hA : AlikeBy S pay (.msg d fs) (.msg d []) :=
                hL.alike hX.wf hC (textWf_msg hX.names hmd).plain (fun e he => by cases he)
                  (fun n _ v h => by cases h)
              rw [List.cons_append, lex_punct (t := .lbrace) rfl (by decide)]
              exact fin [] [] (fun _ h => by cases h) ⟨[], .nil, hA⟩
            · unfold braced at hs
              split at hs
              · obtain ⟨body, hb, rfl⟩ := Option.map_eq_some_iff.1 hs
                obtain ⟨gs, hF, hA⟩ := fmtMsg_reads hX ih hC hq.1 hq.2 hb (K := K) (by omega) (BTail.newline ind r)
                simp only [List.cons_append, List.append_assoc, List.nil_append]
                rw [lex_punct (t := .lbrace) rfl (by decide), lex_newline]
                refine fin body (newline ind) ?_ ⟨gs, hF, hA⟩
                intro c hc
                rcases List.mem_cons.1 hc with rfl | hc
                · decide
                · rw [(List.mem_replicate.1 hc).2]; decide
              · obtain ⟨body, hb, rfl⟩ := Option.map_eq_some_iff.1 hs
                obtain ⟨gs, hF, hA⟩ := fmtMsg_reads hX ih hC hq.1 hq.2 hb (K := K) (by omega) (BTail.brace r)
                simp only [List.cons_append, List.append_assoc, List.nil_append]
                rw [lex_punct (t := .lbrace) rfl (by decide)]
                exact fin body [] (fun _ h => by cases h) ⟨gs, hF, hA⟩
      | list vs => simp [confVal, isList_of_ne hc] at hv
      | map kvs => simp [confVal, isMap_of_ne hc] at hv
      | _ =>
        simp only [confVal, Bool.and_eq_true] at hv
        exact parseVal_scalar hX.floats hX.enums (textWf_enum hX.names) hv.2 (scalarText_of hq) hs hr

/-- A printed message reads back alike. -/
theorem text_reads {env : TEnv} {S : Schema} {o : FOpts} {P : DynMsg → Prop} {pay : Payloads} (hX : TextCtx env S o P pay) {k K : Nat} (hK : k ≤ K)
    {m : DynMsg} (hm : confMsg S m = true) (hp : P m) (hq : keepSlots textF32 P m.fields) {s : List Char} (hs : toText env S o k m = some s) :
    ∃ m', parseText env S K m.desc s = .ok m' ∧ AlikeMsgBy S pay m m' := by
  obtain ⟨md, hC⟩ := confMsg_iff.1 hm
  have hmd : S.msg? m.desc = some md := hC.desc
  simp only [toText, hmd] at hs
  obtain ⟨gs, hF, hA⟩ := fmtMsg_reads hX (valOk hX k) hC hp hq hs hK (BTail.nil)
  rw [List.append_nil] at hF
  have ht := hF.top (fun fs ts => parseField_good (parseMsg_good env S K) md m.desc fs ts) (Nat.le_refl _)
  refine ⟨⟨m.desc, gs⟩, ?_, hA⟩
  simp only [parseText, mergeText, mergeToks, DynMsg.empty, hmd, ht]

end Verif.Text
