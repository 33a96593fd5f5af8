import Verif.Text.Safe
import Verif.Dyn.Same
/-!
A singular field that is set is never set again by the text parser.
-/
set_option autoImplicit false
namespace Verif.Text
open Verif.Wire Verif.Dyn Verif.Pool

/-- The field or extension a name in the text stands for. -/
def Denotes (S : Schema) (md : MsgDesc) : FName → FieldDesc → Prop
  | .ident n, f => findField S md n = some (some f)
  | .ext n, f => MsgDesc.extByName md n = some f
  | .any _ _, _ => False

/-- Consecutive fields of a text: their names, and the message before and after. -/
inductive Run (env : TEnv) (S : Schema) (sub : Nat → List LTok → PR FieldSet) (md : MsgDesc)
    (d : Nat) : FieldSet → List LTok → List FName → FieldSet → List LTok → Prop
  | nil (fs : FieldSet) (ts : List LTok) : Run env S sub md d fs ts [] fs ts
  | cons {fs fs1 fs2 : FieldSet} {ts r ts1 ts2 : List LTok} {n : FName} {ns : List FName} :
      parseFieldName ts = .ok (n, r) → parseField env S sub md d fs ts = .ok (fs1, ts1) →
      Run env S sub md d fs1 ts1 ns fs2 ts2 → Run env S sub md d fs ts (n :: ns) fs2 ts2

section
variable {env : TEnv} {S : Schema} {sub : Nat → List LTok → PR FieldSet} {md : MsgDesc} {d : Nat}

theorem parseField_name {fs fs1 : FieldSet} {ts ts1 : List LTok}
    (h : parseField env S sub md d fs ts = .ok (fs1, ts1)) :
    ∃ n r r', parseFieldName ts = .ok (n, r) ∧ parseColon r = .ok r' ∧
      ∃ r'', parseNamed env S sub md d n fs r' = .ok (fs1, r'') := by
  unfold parseField at h
  split at h
  · cases h
  · rename_i n r hn
    split at h
    · cases h
    · rename_i r' hr
      split at h
      · cases h
      · rename_i fs' r'' hv
        refine ⟨n, r, r', hn, hr, r'', ?_⟩
        unfold parseSep at h
        split at h <;> cases h <;> exact hv

theorem topLoop_run {n : Nat} {fs fs' : FieldSet} {ts : List LTok}
    (h : topLoop (parseField env S sub md d) n fs ts = .ok fs') :
    ∃ ns, Run env S sub md d fs ts ns fs' [] := by
  induction n generalizing fs ts with
  | zero =>
    cases ts with
    | nil => cases h; exact ⟨[], .nil _ _⟩
    | cons t r => cases h
  | succ n ih =>
    cases ts with
    | nil => cases h; exact ⟨[], .nil _ _⟩
    | cons t r =>
      simp only [topLoop] at h
      cases he : parseField env S sub md d fs (t :: r) with
      | error e => rw [he] at h; cases h
      | ok p =>
        rw [he] at h
        obtain ⟨ns, hns⟩ := ih h
        obtain ⟨n, r, _, hn, _⟩ := parseField_name he
        exact ⟨n :: ns, .cons hn he hns⟩

theorem bodyLoop_run {term : Tok} {n : Nat} {fs fs' : FieldSet} {ts r : List LTok}
    (h : bodyLoop (parseField env S sub md d) term n fs ts = .ok (fs', r)) :
    ∃ ns, Run env S sub md d fs ts ns fs' (.tok term :: r) := by
  induction n generalizing fs ts with
  | zero => cases h
  | succ n ih =>
    unfold bodyLoop at h
    split at h
    · contradiction
    · rename_i heq
      cases heq
      split at h
      · split at h
        · cases h
        · rename_i fs1 r1 he
          obtain ⟨ns, hns⟩ := ih h
          obtain ⟨n, r, _, hn, _⟩ := parseField_name he
          exact ⟨n :: ns, .cons hn he hns⟩
      · split at h
        · rename_i ht
          cases h
          subst ht
          exact ⟨[], .nil _ _⟩
        · cases h
    · unfold unexpected at h
      split at h <;> cases h

theorem findField_mem {n : List Char} {f : FieldDesc} (h : findField S md n = some (some f)) :
    f ∈ md.fields := by
  unfold findField at h
  split at h
  · rename_i g hg
    cases h
    exact List.mem_of_find?_eq_some (Option.filter_eq_some_iff.1 hg).1
  · split at h
    · rename_i g hg
      split at h
      · cases h
      · split at h
        · cases h
          exact List.mem_of_find?_eq_some (Option.filter_eq_some_iff.1 hg).1
        · cases h
    · cases h

theorem Denotes.known (hS : S.wf = true) (hA : textSafe S = true) (hm : S.msg? d = some md)
    {n : FName} {f : FieldDesc} (h : Denotes S md n f) : Known S d f := by
  cases n with
  | ident n =>
    left
    rw [field?_eq hm]
    exact getField_of_mem (Schema.wf_msg hS hm).nodup (findField_mem h)
  | ext n =>
    right
    rw [ext?_eq hm]
    exact textSafe_ext hA hm (List.mem_of_find?_eq_some h)
  | any a b => cases h

theorem Known.unique (hS : S.wf = true) (hm : S.msg? d = some md) {f g : FieldDesc}
    (hf : Known S d f) (hg : Known S d g) (h : f.number = g.number) : f = g := by
  have hw := Schema.wf_msg hS hm
  have key : ∀ {f g : FieldDesc}, S.field? d f.number = some f → S.ext? d g.number = some g →
      f.number ≠ g.number := by
    intro f g h1 h2 e
    rw [field?_eq hm, e] at h1
    rw [ext?_eq hm] at h2
    rw [(hw.extNew g (getExtension_mem h2).1).1] at h1
    cases h1
  rcases hf with hf | hf <;> rcases hg with hg | hg
  · rw [h, hg] at hf
    exact (Option.some.inj hf).symm
  · exact absurd h (key hf hg)
  · exact absurd h.symm (key hg hf)
  · rw [h, hg] at hf
    exact (Option.some.inj hf).symm

theorem anyHas_false {fs : FieldSet} {mem : List FieldDesc} (h : anyHas S fs mem = some false) :
    ∀ g ∈ mem, FieldSet.has S fs g = some false := by
  induction mem with
  | nil => exact nofun
  | cons f r ih =>
    rw [anyHas] at h
    split at h
    · cases h
    · cases h
    · rename_i hf
      intro g hg
      rcases List.mem_cons.1 hg with rfl | hg
      · exact hf
      · exact ih h g hg

/-- `f` and `g` are members of the same oneof. -/
def Mates (f g : FieldDesc) : Prop := ∃ o, f.oneof = some o ∧ g.oneof = some o

theorem mates_mem (hS : S.wf = true) (hm : S.msg? d = some md) {f g : FieldDesc} (hg : Known S d g)
    (h : Mates f g) : g ∈ oneofMembers md f := by
  obtain ⟨o, h1, h2⟩ := h
  have hw := Schema.wf_msg hS hm
  have : g ∈ md.fields := by
    rcases hg with hg | hg
    · rw [field?_eq hm] at hg
      exact (getField_mem hg).1
    · rw [ext?_eq hm] at hg
      rw [(hw.extNew g (getExtension_mem hg).1).2] at h2
      cases h2
  simp [oneofMembers, h1, h2, this]

/-- What one field in the text does to the message. -/
structure Step1 (S : Schema) (md : MsgDesc) (d : Nat) (fs fs1 : FieldSet) (g : FieldDesc) : Prop where
  known : Known S d g
  free : g.card ≠ .repeated → FieldSet.has S fs g = some false ∧
    ∀ h, Known S d h → Mates g h → FieldSet.has S fs h = some false
  stored : ∃ v, SMap.get? fs1 g.number = some (.val v)
  other : ∀ k, k ≠ g.number → k ∉ siblings md g → SMap.get? fs1 k = SMap.get? fs k

theorem parseFieldValue_step (hS : S.wf = true) (hm : S.msg? d = some md)
    {fs fs1 : FieldSet} (hC : Conf S ⟨d, fs⟩ md) {sib : List Nat} {mem : List FieldDesc}
    {g : FieldDesc} (hk : Known S d g)
    (hcase : (md.getField g.number = some g ∧ sib = siblings md g ∧ mem = oneofMembers md g) ∨
      (md.getExtension g.number = some g ∧ sib = [] ∧ mem = [] ∧ g.oneof = none))
    {ts r : List LTok} (h : parseFieldValue env S sub sib mem g fs ts = .ok (fs1, r)) :
    Step1 S md d fs fs1 g := by
  have hsib : siblings md g = sib := by
    rcases hcase with h | h
    · exact h.2.1.symm
    · simp [siblings, h.2.2.2, h.2.1]
  have hmem : oneofMembers md g = mem := by
    rcases hcase with h | h
    · exact h.2.2.symm
    · simp [oneofMembers, h.2.2.2, h.2.2.1]
  have hmut : ∀ fs' v, FieldSet.getMut S sib fs g = some (fs', v) → ∀ v',
      FieldSet.write g v' fs' = SMap.insert g.number (.val v') (FieldSet.clearAll sib fs) := by
    intro fs' v he v'
    rcases hcase with h | h
    · obtain ⟨fs2, v2, h1, _, h3, _⟩ := getMut_field hS hC h.1
      rw [h.2.1] at he
      rw [h1] at he
      cases he
      rw [h3, h.2.1]
    · obtain ⟨fs2, v2, h1, _, h3, _⟩ := getMut_ext hS hC h.1
      rw [h.2.1] at he
      rw [h1] at he
      cases he
      rw [h3, h.2.1]
      rfl
  have hins : ∀ v, fs1 = SMap.insert g.number (.val v) (FieldSet.clearAll sib fs) →
      (∃ v, SMap.get? fs1 g.number = some (.val v)) ∧
      ∀ k, k ≠ g.number → k ∉ siblings md g → SMap.get? fs1 k = SMap.get? fs k := by
    intro v e
    subst e
    refine ⟨⟨v, by rw [SMap.get?_insert, if_pos rfl]⟩, fun k h1 h2 => ?_⟩
    rw [SMap.get?_insert, if_neg h1, get?_clearAll _ _ hC.sorted, if_neg (hsib ▸ h2)]
  unfold parseFieldValue at h
  split at h
  · rename_i hl
    have hr := (isList_iff.1 hl).1
    split at h
    · cases h
    · split at h
      · rename_i fs' ws he
        cases h
        obtain ⟨h1, h2⟩ := hins _ (hmut _ _ he _)
        exact ⟨hk, fun hn => absurd hr hn, h1, h2⟩
      · cases h
  · split at h
    · rename_i hl
      have hr := (isMap_iff.1 hl).1
      split at h
      · cases h
      · split at h
        · rename_i fs' kvs i he _
          split at h
          · cases h
          · cases h
            obtain ⟨h1, h2⟩ := hins _ (hmut _ _ he _)
            exact ⟨hk, fun hn => absurd hr hn, h1, h2⟩
        · cases h
    · split at h
      · cases h
      · split at h
        · cases h
        · cases h
        · rename_i hhas
          split at h
          · cases h
          · cases h
          · rename_i hany
            cases h
            obtain ⟨h1, h2⟩ := hins _ rfl
            refine ⟨hk, fun _ => ⟨hhas, fun h' hk' hmt => ?_⟩, h1, h2⟩
            exact anyHas_false hany h' (hmem ▸ mates_mem hS hm hk' hmt)

theorem parseField_step (hS : S.wf = true) (hA : textSafe S = true) {fs fs1 : FieldSet}
    (hC : Conf S ⟨d, fs⟩ md) {ts ts1 r : List LTok} {n : FName}
    (hn : parseFieldName ts = .ok (n, r)) (h : parseField env S sub md d fs ts = .ok (fs1, ts1)) :
    (∃ g, Denotes S md n g ∧ Step1 S md d fs fs1 g) ∨ md.name = anyName := by
  obtain ⟨n', r', r1, hn', _, r2, h⟩ := parseField_name h
  rw [hn] at hn'
  cases hn'
  have hm := hC.desc
  unfold parseNamed at h
  split at h
  · split at h
    · cases h
    · cases h
    · rename_i f hf
      have hk : Known S d f := Denotes.known (n := .ident _) hS hA hm hf
      left
      refine ⟨f, hf, parseFieldValue_step hS hm hC hk (.inl ⟨?_, rfl, rfl⟩) h⟩
      exact getField_of_mem (Schema.wf_msg hS hm).nodup (findField_mem hf)
  · split at h
    · cases h
    · rename_i f hf
      have hk : Known S d f := Denotes.known (n := .ext _) hS hA hm hf
      have hmem := List.mem_of_find?_eq_some hf
      left
      exact ⟨f, hf, parseFieldValue_step hS hm hC hk (.inr ⟨textSafe_ext hA hm hmem, rfl, rfl,
        ((Schema.wf_msg hS hm).extNew f hmem).2⟩) h⟩
  · right
    unfold parseAny at h
    split at h
    · cases h
    · split at h
      · cases h
      · split at h
        · cases h
        · split at h
          · cases h
          · rename_i hne
            exact Decidable.not_not.1 hne

theorem Denotes.functional {n : FName} {f g : FieldDesc} (hf : Denotes S md n f)
    (hg : Denotes S md n g) : f = g := by
  cases n with
  | ident n => exact Option.some.inj (Option.some.inj (hf.symm.trans hg))
  | ext n => exact Option.some.inj (hf.symm.trans hg)
  | any a b => cases hf

/-- A set singular field keeps its value. -/
theorem Step1.keep (hS : S.wf = true) (hm : S.msg? d = some md) {fs fs1 : FieldSet} {g : FieldDesc}
    (h : Step1 S md d fs fs1 g) {f : FieldDesc} (hf : Known S d f) (hc : f.card ≠ .repeated)
    (hh : FieldSet.has S fs f = some true) : SMap.get? fs1 f.number = SMap.get? fs f.number := by
  have hw := Schema.wf_msg hS hm
  have hne : f ≠ g := by
    rintro rfl
    rw [(h.free hc).1] at hh
    cases hh
  refine h.other _ (fun e => hne (Known.unique hS hm hf h.known e)) (fun hs => ?_)
  have hgw : FieldWf S g := by
    rcases h.known with hk | hk
    · rw [field?_eq hm] at hk
      exact hw.fields g (getField_mem hk).1
    · rw [ext?_eq hm] at hk
      exact hw.exts g (getExtension_mem hk).1
  unfold siblings at hs
  split at hs
  · cases hs
  · rename_i o ho
    obtain ⟨x, hx, hxn⟩ := List.mem_map.1 hs
    obtain ⟨hx1, hx2⟩ := List.mem_filter.1 hx
    simp only [Bool.and_eq_true, beq_iff_eq] at hx2
    have hxk : Known S d x := .inl ((field?_eq hm _).trans (getField_of_mem hw.nodup hx1))
    have : x = f := Known.unique hS hm hxk hf hxn
    subst this
    have hgc : g.card ≠ .repeated := by
      intro hr
      rw [(hgw.rep hr).2.2] at ho
      cases ho
    rw [(h.free hgc).2 x hxk ⟨o, ho, hx2.1⟩] at hh
    cases hh

theorem has_congr {fs fs1 : FieldSet} {f : FieldDesc}
    (h : SMap.get? fs1 f.number = SMap.get? fs f.number) : FieldSet.has S fs1 f = FieldSet.has S fs f := by
  unfold FieldSet.has FieldSet.getValue
  rw [h]

/-- The fields of a text keep the message well-typed. -/
def StepConf (env : TEnv) (S : Schema) (sub : Nat → List LTok → PR FieldSet) (md : MsgDesc)
    (d : Nat) (T : List LTok → Prop) : Prop :=
  ∀ fs ts fs1 ts1, Conf S ⟨d, fs⟩ md → T ts → parseField env S sub md d fs ts = .ok (fs1, ts1) →
    Conf S ⟨d, fs1⟩ md ∧ T ts1

theorem Run.keep (hS : S.wf = true) (hA : textSafe S = true) (ha : md.name ≠ anyName)
    {T : List LTok → Prop} (hp : StepConf env S sub md d T)
    {fs fs2 : FieldSet} {ts ts2 : List LTok} {ns : List FName} (h : Run env S sub md d fs ts ns fs2 ts2)
    (hC : Conf S ⟨d, fs⟩ md) (hT : T ts) {f : FieldDesc} (hf : Known S d f) (hc : f.card ≠ .repeated)
    (hh : FieldSet.has S fs f = some true) :
    SMap.get? fs2 f.number = SMap.get? fs f.number ∧
      ∀ n ∈ ns, ∀ g, Denotes S md n g → g.card ≠ .repeated → g ≠ f ∧ ¬ Mates g f := by
  induction h with
  | nil => exact ⟨rfl, nofun⟩
  | @cons fs fs1 fs2 ts r ts1 ts2 n ns hn hpf _ ih =>
    obtain ⟨hC1, hT1⟩ := hp _ _ _ _ hC hT hpf
    rcases parseField_step hS hA hC hn hpf with ⟨g, hd, hg⟩ | hx
    · have hk := hg.keep hS hC.desc hf hc hh
      obtain ⟨h1, h2⟩ := ih hC1 hT1 (by rw [has_congr hk]; exact hh)
      refine ⟨h1.trans hk, fun n' hn' g' hd' hc' => ?_⟩
      rcases List.mem_cons.1 hn' with rfl | hn'
      · cases Denotes.functional hd hd'
        constructor
        · rintro rfl
          rw [(hg.free hc').1] at hh
          cases hh
        · intro hm
          rw [(hg.free hc').2 f hf hm] at hh
          cases hh
      · exact h2 n' hn' g' hd' hc'
    · exact absurd hx ha

/-- No two fields of a text set the same singular field with presence, or two members of a
oneof. -/
theorem Run.once (hS : S.wf = true) (hA : textSafe S = true) (ha : md.name ≠ anyName)
    {T : List LTok → Prop} (hp : StepConf env S sub md d T)
    {fs fs2 : FieldSet} {ts ts2 : List LTok} {ns : List FName} (h : Run env S sub md d fs ts ns fs2 ts2)
    (hC : Conf S ⟨d, fs⟩ md) (hT : T ts) :
    ns.Pairwise (fun a b => ∀ f g, Denotes S md a f → Denotes S md b g → f.card ≠ .repeated →
      g.card ≠ .repeated → f.presence = true → g ≠ f ∧ ¬ Mates g f) := by
  induction h with
  | nil => exact .nil
  | @cons fs fs1 fs2 ts r ts1 ts2 n ns hn hpf hr ih =>
    obtain ⟨hC1, hT1⟩ := hp _ _ _ _ hC hT hpf
    refine .cons ?_ (ih hC1 hT1)
    intro n' hn' f g hf hg hc hcg hpr
    rcases parseField_step hS hA hC hn hpf with ⟨f', hd, hst⟩ | hx
    · cases Denotes.functional hf hd
      have hh : FieldSet.has S fs1 f = some true := by
        obtain ⟨v, hv⟩ := hst.stored
        simp [FieldSet.has, FieldSet.getValue, hv, hasVal, hpr]
      exact (hr.keep hS hA ha hp hC1 hT1 hst.known hc hh).2 n' hn' g hg hcg
    · exact absurd hx ha

/-- Text into a conforming message: the fields of the text, one after the other. -/
theorem mergeText_run (hS : S.wf = true) (hA : textSafe S = true) (hp : ParsesFloats env.parse64)
    {k : Nat} {m m' : DynMsg} (hm : confMsg S m = true) {text : List Char}
    (h : mergeText env S k m text = .ok m') :
    ∃ md ns, S.msg? m.desc = some md ∧ Conf S m md ∧ m'.desc = m.desc ∧
      Run env S (parseMsg env S k) md m.desc m.fields (lex env.parse64 text) ns m'.fields [] ∧
      StepConf env S (parseMsg env S k) md m.desc (ToksOk env.parse64 false 0) ∧
      ToksOk env.parse64 false 0 (lex env.parse64 text) := by
  obtain ⟨md, hC⟩ := confMsg_iff.1 hm
  simp only [mergeText, mergeToks, hC.desc] at h
  split at h
  · cases h
  · rename_i fs he
    cases h
    obtain ⟨ns, hns⟩ := topLoop_run he
    refine ⟨md, ns, hC.desc, hC, rfl, hns, ?_, fun t ht => lex_ok hp text t ht, nofun⟩
    intro fs ts fs1 ts1 hC hT he
    have hsub : SubOk S env.parse64 false 0 (parseMsg env S k) := fun i md ts hi ht =>
      parseMsg_sound hS hA k i md ts hi ⟨ht.1, nofun⟩
    refine ⟨(parseField_sound hS hA (parseMsg_good env S k) hsub hC hT).ok he, ?_⟩
    exact hT.suffix ((parseField_good (env := env) (S := S) (parseMsg_good env S k) md m.desc fs ts).ok he).1

end
end Verif.Text
