import Verif.Dyn.Across4
import Verif.Props.PoolAcross
import Verif.Json.Across2
import Verif.Text.Across3
/-!
C99: pools that hold the same files print messages and read what is printed alike.
-/
set_option autoImplicit false
namespace Verif.Props
open Verif.Wire Verif.Dyn Verif.Pool Verif.Json

section
variable {env : Env} (hsr : SearchOk env.search) (hke : KeepsEntry env) {acc acc' : List FileP} {p q : Pool}
include hsr hke

/-- The views of two pools that hold the same files show the same under other numbers and the same names. -/
theorem views_acrossNamed (h : Accepts env acc p) (h' : Accepts env acc' q) (hp : acc.Perm acc') (hw : WellNamed acc)
    (hA : Apart q) {S T : Schema} (hS : p.view = .ok S) (hT : q.view = .ok T) {ρ : Nat → Nat} (hρ : Numbers p q ρ) :
    ∃ σ, AcrossNamed S T ρ σ (fun d => d < p.messages.length) := by
  have hsub : ∀ f ∈ acc, f ∈ acc' := fun f hf => hp.mem_iff.1 hf
  have hsub' : ∀ f ∈ acc', f ∈ acc := fun f hf => hp.mem_iff.2 hf
  have hw' : WellNamed acc' := fun f hf => hw f (hsub' f hf)
  have hx := noMoreExts_of hsr h.hist h'.hist hsub' hw
  obtain ⟨σ, hX, hN⟩ := views_named hsr hke h h' hsub hw' hx hA hS hT hρ
  have found : ∀ n d, p.messageByName n = some d → d < p.messages.length ∧ q.messageByName n = some (ρ d) := by
    intro n d hd
    obtain ⟨a, h1, h2⟩ := (C18_message hsr h.hist n d).1 hd
    have hlt := (List.getElem?_eq_some_iff.1 h1).1
    refine ⟨hlt, (C18_message hsr h'.hist n (ρ d)).2 ?_⟩
    obtain ⟨m, ⟨a', e1, e2⟩, b, e3, e4⟩ := hρ d hlt
    rw [h1] at e1; cases e1
    exact ⟨b, e3, by rw [e4, ← e2]; exact h2⟩
  refine ⟨σ, { hX with name := ?_, byName := ?_, named := ?_, extName := ?_, extJson := ?_ }⟩
  · intro d md td hd h1 h2; exact (hN d md td hd h1 h2).1
  · intro n
    rw [C68_name hsr h.hist hS, C68_name hsr h'.hist hT]
    cases hn : p.messageByName n with
    | some d => exact (found n d hn).2
    | none =>
      cases hq : q.messageByName n with
      | none => rfl
      | some e =>
        exfalso
        obtain ⟨ρ', hρ'⟩ := C98_numbers hsr h'.hist h.hist hsub' hw
        obtain ⟨b, h1, h2⟩ := (C18_message hsr h'.hist n e).1 hq
        obtain ⟨m, ⟨b', e1, e2⟩, a, e3, e4⟩ := hρ' e (List.getElem?_eq_some_iff.1 h1).1
        rw [h1] at e1; cases e1
        have := (C18_message hsr h.hist n (ρ' e)).2 ⟨a, e3, by rw [e4, ← e2]; exact h2⟩
        rw [hn] at this; cases this
  · intro n d hd
    rw [C68_name hsr h.hist hS] at hd
    exact (found n d hd).1
  · intro d md td hd h1 h2 n
    obtain ⟨_, x1, x2, _, x3, _⟩ := hN d md td hd h1 h2
    exact find?_ren x1 x2 (fun _ => rfl) fun g hg g' hg' t1 t2 => by
      simp only [beq_iff_eq] at t1 t2
      exact x3 g hg g' hg' (t1.trans t2.symm)
  · intro d md td hd h1 h2 n
    obtain ⟨_, x1, x2, x4, x3, _⟩ := hN d md td hd h1 h2
    refine find?_ren x1 x2 (fun _ => rfl) fun g hg g' hg' t1 t2 => ?_
    simp only [beq_iff_eq] at t1 t2
    have := t1.trans t2.symm
    rw [x4 g hg, x4 g' hg'] at this
    exact x3 g hg g' hg' (by simpa using this)

/-- **C99, JSON.** Two pools that hold the same files, each in its own order and added in its own portions: the same
message is the same JSON in both, or fails alike, under all options. -/
theorem C99_json (h : Accepts env acc p) (h' : Accepts env acc' q) (hp : acc.Perm acc') (hw : WellNamed acc)
    (hA : Apart q) {S T : Schema} (hS : p.view = .ok S) (hT : q.view = .ok T) {ρ : Nat → Nat} (hρ : Numbers p q ρ)
    (jenv : JEnv) (o : SOpts) (k : Nat) (m : DynMsg) (hm : OfPool p m) :
    toJson jenv T o k (renMsg ρ m) = toJson jenv S o k m := by
  obtain ⟨σ, hX⟩ := views_acrossNamed hsr hke h h' hp hw hA hS hT hρ
  exact toJson_across jenv hX o k hm

/-- **C99, text.** Likewise in the text format. -/
theorem C99_text (h : Accepts env acc p) (h' : Accepts env acc' q) (hp : acc.Perm acc') (hw : WellNamed acc)
    (hA : Apart q) {S T : Schema} (hS : p.view = .ok S) (hT : q.view = .ok T) {ρ : Nat → Nat} (hρ : Numbers p q ρ)
    (tenv : Text.TEnv) (o : Text.FOpts) (k : Nat) (m : DynMsg) (hm : OfPool p m) :
    Text.toText tenv T o k (renMsg ρ m) = Text.toText tenv S o k m := by
  obtain ⟨σ, hX⟩ := views_acrossNamed hsr hke h h' hp hw hA hS hT hρ
  exact Text.toText_across tenv hX o k hm

/-- **C99, reading JSON.** The same JSON is read to the same message, or fails alike. -/
theorem C99_fromJson (h : Accepts env acc p) (h' : Accepts env acc' q) (hp : acc.Perm acc') (hw : WellNamed acc)
    (hA : Apart q) {S T : Schema} (hS : p.view = .ok S) (hT : q.view = .ok T) {ρ : Nat → Nat} (hρ : Numbers p q ρ)
    (jenv : JEnv) (o : DOpts) (k : Nat) (d : Nat) (hd : d < p.messages.length) (j : Json) :
    fromJson jenv T o k (ρ d) j = (fromJson jenv S o k d j).map (renMsg ρ) ∧
      ∀ m, fromJson jenv S o k d j = .ok m → OfPool p m := by
  obtain ⟨σ, hX⟩ := views_acrossNamed hsr hke h h' hp hw hA hS hT hρ
  have := fromJson_across jenv hX o k hd j
  exact ⟨this.eq, fun m hm => this.holds hm⟩

/-- **C99, reading text.** The same text is merged into the same message alike. -/
theorem C99_mergeText (h : Accepts env acc p) (h' : Accepts env acc' q) (hp : acc.Perm acc') (hw : WellNamed acc)
    (hA : Apart q) {S T : Schema} (hS : p.view = .ok S) (hT : q.view = .ok T) {ρ : Nat → Nat} (hρ : Numbers p q ρ)
    (tenv : Text.TEnv) (k : Nat) (m : DynMsg) (hm : OfPool p m) (text : List Char) :
    Text.mergeText tenv T k (renMsg ρ m) text = (Text.mergeText tenv S k m text).map (renMsg ρ) ∧
      ∀ m', Text.mergeText tenv S k m text = .ok m' → OfPool p m' := by
  obtain ⟨σ, hX⟩ := views_acrossNamed hsr hke h h' hp hw hA hS hT hρ
  have := Text.mergeText_across tenv hX k hm text
  exact ⟨this.eq, fun m hm => this.holds hm⟩

/-- **C99, accessors.** A field, given by its number, is set or not alike, and has the same value or the same default;
clearing it leaves the same; a value that one message takes the other takes, and the messages are the same after it. -/
theorem C99_access (h : Accepts env acc p) (h' : Accepts env acc' q) (hp : acc.Perm acc') (hw : WellNamed acc)
    (hA : Apart q) {S T : Schema} (hS : p.view = .ok S) (hT : q.view = .ok T) {ρ : Nat → Nat} (hρ : Numbers p q ρ)
    (m : DynMsg) (hm : OfPool p m) {md td : MsgDesc} (hmd : S.msg? m.desc = some md)
    (htd : T.msg? (ρ m.desc) = some td) (n : Nat) :
    DynMsg.hasByNumber T td (renMsg ρ m) n = DynMsg.hasByNumber S md m n ∧
    DynMsg.getByNumber T td (renMsg ρ m) n = (DynMsg.getByNumber S md m n).map (Option.map (renVal ρ)) ∧
    DynMsg.clearByNumber td (renMsg ρ m) n = renMsg ρ (DynMsg.clearByNumber md m n) ∧
    ∀ v, (DynMsg.trySetByNumber T td (renMsg ρ m) n (renVal ρ v)).map (fun r => (r.1, r.2.toBool)) =
      (DynMsg.trySetByNumber S md m n v).map (fun r => (renMsg ρ r.1, r.2.toBool)) := by
  obtain ⟨σ, hX⟩ := views_acrossNamed hsr hke h h' hp hw hA hS hT hρ
  obtain ⟨md', td', h1, h2, _, h3, _⟩ := hX.msgs m.desc hm.1
  rw [hmd] at h1; cases h1
  rw [htd] at h2; cases h2
  have e := getField_ren h3 n
  unfold DynMsg.hasByNumber DynMsg.getByNumber DynMsg.clearByNumber DynMsg.trySetByNumber
  rw [e]
  cases hg : md.getField n with
  | none => exact ⟨rfl, rfl, rfl, fun _ => rfl⟩
  | some f =>
    have hf := hX.inner m.desc md hm.1 hmd f (.inl (List.mem_of_find?_eq_some hg))
    simp only [Option.map_some]
    refine ⟨hX.toAcross.has hf hm.2, ?_, ?_, fun v => ?_⟩
    · unfold DynMsg.getField
      rw [show (renMsg ρ m).fields = renSlots ρ m.fields from rfl, hX.toAcross.get hf m.fields]
      cases FieldSet.get S m.fields f <;> rfl
    · unfold DynMsg.clearField FieldSet.clear
      show DynMsg.mk _ (SMap.erase f.number (renSlots ρ m.fields)) = _
      rw [erase_renSlots]; rfl
    · rw [hX.toAcross.trySetField h3 hf]
      cases DynMsg.trySetField S md m f v with
      | none => rfl
      | some r =>
        obtain ⟨m', r⟩ := r
        cases r with
        | ok u => rfl
        | error e => cases e <;> rfl

/-- **C99, extensions.** An extension, given by its number, is the one of the same name in the other pool; it is set or
not alike, has the same value or default, and clearing and setting it leave the same. -/
theorem C99_extension (h : Accepts env acc p) (h' : Accepts env acc' q) (hp : acc.Perm acc') (hw : WellNamed acc)
    (hA : Apart q) {S T : Schema} (hS : p.view = .ok S) (hT : q.view = .ok T) {ρ : Nat → Nat} (hρ : Numbers p q ρ)
    (m : DynMsg) (hm : OfPool p m) {md td : MsgDesc} (hmd : S.msg? m.desc = some md)
    (htd : T.msg? (ρ m.desc) = some td) {n : Nat} {f : FieldDesc} (hf : md.getExtension n = some f) :
    ∃ g, td.getExtension n = some g ∧ g.name = f.name ∧
      DynMsg.hasField T (renMsg ρ m) g = DynMsg.hasField S m f ∧
      DynMsg.getField T (renMsg ρ m) g = (DynMsg.getField S m f).map (renVal ρ) ∧
      DynMsg.clearField (renMsg ρ m) g = renMsg ρ (DynMsg.clearField m f) ∧
      ∀ v, DynMsg.setExt (renMsg ρ m) g (renVal ρ v) = renMsg ρ (DynMsg.setExt m f v) := by
  obtain ⟨σ, hX⟩ := views_acrossNamed hsr hke h h' hp hw hA hS hT hρ
  obtain ⟨md', td', h1, h2, _, _, h3⟩ := hX.msgs m.desc hm.1
  rw [hmd] at h1; cases h1
  rw [htd] at h2; cases h2
  have hi := getExtension_in hX.toAcross hm.1 hmd hf
  refine ⟨renField ρ σ f, by rw [h3, hf]; rfl, rfl, hX.toAcross.has hi hm.2, ?_, ?_, setExt_ren m f⟩
  · unfold DynMsg.getField
    rw [show (renMsg ρ m).fields = renSlots ρ m.fields from rfl, hX.toAcross.get hi m.fields]
  · unfold DynMsg.clearField FieldSet.clear
    show DynMsg.mk _ (SMap.erase f.number (renSlots ρ m.fields)) = _
    rw [erase_renSlots]; rfl

/-- **C99, iteration.** `fields()`, `extensions()` and `unknown_fields()` yield the same names, numbers and values in the
same order. -/
theorem C99_iterate (h : Accepts env acc p) (h' : Accepts env acc' q) (hp : acc.Perm acc') (hw : WellNamed acc)
    (hA : Apart q) {S T : Schema} (hS : p.view = .ok S) (hT : q.view = .ok T) {ρ : Nat → Nat} (hρ : Numbers p q ρ)
    (m : DynMsg) (hm : OfPool p m) {md td : MsgDesc} (hmd : S.msg? m.desc = some md)
    (htd : T.msg? (ρ m.desc) = some td) :
    (iterFields T td (renMsg ρ m).fields).map (List.map fun x => (x.1.number, x.1.name, x.2)) =
      (iterFields S md m.fields).map (List.map fun x => (x.1.number, x.1.name, renVal ρ x.2)) ∧
    (iterExtensions T td (renMsg ρ m).fields).map (List.map fun x => (x.1.number, x.1.name, x.2)) =
      (iterExtensions S md m.fields).map (List.map fun x => (x.1.number, x.1.name, renVal ρ x.2)) ∧
    iterUnknown (renMsg ρ m).fields = iterUnknown m.fields := by
  obtain ⟨σ, hX⟩ := views_acrossNamed hsr hke h h' hp hw hA hS hT hρ
  obtain ⟨md', td', h1, h2, _, h3, h4⟩ := hX.msgs m.desc hm.1
  rw [hmd] at h1; cases h1
  rw [htd] at h2; cases h2
  refine ⟨?_, ?_, iterUnknown_ren m.fields⟩
  · rw [iterFields_eq, iterFields_eq, show (renMsg ρ m).fields = renSlots ρ m.fields from rfl,
      hX.toAcross.iterBy (getField_ren h3)
        (fun n f hf => hX.inner m.desc md hm.1 hmd f (.inl (List.mem_of_find?_eq_some hf))) hm.2]
    cases iterBy S md.getField m.fields with
    | none => rfl
    | some l => simp [renField]
  · rw [iterExtensions_eq, iterExtensions_eq, show (renMsg ρ m).fields = renSlots ρ m.fields from rfl,
      hX.toAcross.iterBy h4 (fun n f hf => getExtension_in hX.toAcross hm.1 hmd hf) hm.2]
    cases iterBy S md.getExtension m.fields with
    | none => rfl
    | some l => simp [renField]

/-- **C99, all at once.** -/
theorem C99_order (h : Accepts env acc p) (h' : Accepts env acc' q) (hp : acc.Perm acc') (hw : WellNamed acc)
    (hA : Apart q) : ∃ S T ρ, p.view = .ok S ∧ q.view = .ok T ∧ Numbers p q ρ ∧
    (∀ jenv o k m, OfPool p m → toJson jenv T o k (renMsg ρ m) = toJson jenv S o k m) ∧
    (∀ tenv o k m, OfPool p m → Text.toText tenv T o k (renMsg ρ m) = Text.toText tenv S o k m) ∧
    (∀ jenv o k d j, d < p.messages.length →
      fromJson jenv T o k (ρ d) j = (fromJson jenv S o k d j).map (renMsg ρ)) ∧
    (∀ tenv k m text, OfPool p m →
      Text.mergeText tenv T k (renMsg ρ m) text = (Text.mergeText tenv S k m text).map (renMsg ρ)) := by
  obtain ⟨S, hS⟩ := C68_total hsr h
  obtain ⟨T, hT⟩ := C68_total hsr h'
  obtain ⟨ρ, hρ⟩ := C98_numbers hsr h.hist h'.hist (fun f hf => hp.mem_iff.1 hf) (fun f hf => hw f (hp.mem_iff.2 hf))
  exact ⟨S, T, ρ, hS, hT, hρ,
    fun jenv o k m hm => C99_json hsr hke h h' hp hw hA hS hT hρ jenv o k m hm,
    fun tenv o k m hm => C99_text hsr hke h h' hp hw hA hS hT hρ tenv o k m hm,
    fun jenv o k d j hd => (C99_fromJson hsr hke h h' hp hw hA hS hT hρ jenv o k d hd j).1,
    fun tenv k m text hm => (C99_mergeText hsr hke h h' hp hw hA hS hT hρ tenv k m hm text).1⟩

end
/-! ### Examples -/

/-- Message `c.P` with a message and an extension inside, in the two pools below, under its two numbers: both print
the same, and read it back. -/
def printsShown (p q : Pool) : Bool :=
  apart q && p.messageByName (nm "c.P") == some 2 && q.messageByName (nm "c.P") == some 4 &&
  match p.view, q.view with
  | .ok S, .ok T =>
    let m : DynMsg := ⟨2, [(1, .val (.msg 0 [(1, .val (.i32 1)), (100, .val (.str [65]))]))]⟩
    let m' : DynMsg := ⟨4, [(1, .val (.msg 2 [(1, .val (.i32 1)), (100, .val (.str [65]))]))]⟩
    (match Text.toText exEnv S .default 5 m, Text.toText exEnv T .default 5 m' with
      | some t, some t' => t == t' &&
        (match Text.parseText exEnv S 5 2 t, Text.parseText exEnv T 5 4 t with
          | .ok a, .ok b => a.beq m && b.beq m'
          | _, _ => false)
      | _, _ => false) &&
    (match toJson jEnv S .default 5 m, toJson jEnv T .default 5 m' with
      | .ok t, .ok t' =>
        (match fromJson jEnv S .default 5 2 t, fromJson jEnv T .default 5 4 t' with
          | .ok a, .ok b => a.beq m && b.beq m'
          | _, _ => false)
      | _, _ => false) &&
    (match S.msg? 0, T.msg? 2 with
      | some md, some td => (md.getExtension 100).isSome && (td.getExtension 100).isSome &&
        (match iterExtensions S md [(1, .val (.i32 1)), (100, .val (.str [65]))],
            iterExtensions T td [(1, .val (.i32 1)), (100, .val (.str [65]))] with
          | some [(f, .str [65])], some [(g, .str [65])] => f.name == g.name
          | _, _ => false)
      | _, _ => false)
  | _, _ => false

/-- The premises are met. -/
example : ∃ p q, Accepts env0 [fileA, fileB, fileAside] p ∧ Accepts env0 [fileAside, fileA, fileB] q ∧
    [fileA, fileB, fileAside].Perm [fileAside, fileA, fileB] ∧ WellNamed [fileA, fileB, fileAside] ∧ Apart q ∧
    printsShown p q = true := by
  obtain ⟨p, q, h1, h2, _, h3⟩ := shared_ex (bs := [[fileA, fileB], [fileAside]]) (bs' := [[fileAside, fileA], [fileB]])
    printsShown (by decide +kernel) (by simp) (by decide +kernel)
  have h4 := h3
  simp only [printsShown, Bool.and_eq_true] at h4
  exact ⟨p, q, h1, h2, (List.perm_append_comm : ([fileA, fileB] ++ [fileAside]).Perm ([fileAside] ++ [fileA, fileB])),
    wellNamed_ok (by decide +kernel), apart_ok h4.1.1.1, h3⟩

end Verif.Props
