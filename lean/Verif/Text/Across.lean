import Verif.Dyn.Across3
/-!
Two schemas that show the same types under other numbers print messages alike in the text format.
-/
set_option autoImplicit false
namespace Verif.Text
open Verif.Wire Verif.Dyn Verif.Pool

section
variable {S T : Schema} {ρ σ : Nat → Nat} {R : Nat → Prop}

/-- The kind is of a message in `R` or of an enum both schemas show alike. -/
structure KindIn (S T : Schema) (σ : Nat → Nat) (R : Nat → Prop) (k : Kind) : Prop where
  msg : ∀ i, k = .message i → R i
  enum : ∀ e, k = .enum e → T.enums[σ e]? = S.enums[e]?

theorem KindIn.of {f : FieldDesc} (h : InAcross S T σ R f) : KindIn S T σ R f.kind := ⟨h.msg, h.enum⟩

theorem fmtAll_map {α β : Type} {f : α → Option (List Char)} {g : β → Option (List Char)} (r : α → β) :
    ∀ l : List α, (∀ a ∈ l, g (r a) = f a) → fmtAll g (l.map r) = fmtAll f l
  | [], _ => rfl
  | a :: l, h => by
    simp only [List.map_cons, fmtAll, h a (by simp), fmtAll_map r l fun b hb => h b (List.mem_cons_of_mem _ hb)]

theorem renVals_map : ∀ vs : List Value, renVals ρ vs = vs.map (renVal ρ)
  | [] => rfl
  | v :: r => by simp only [renVals, List.map_cons, renVals_map r]

theorem renMap_map : ∀ kvs : List (MapKey × Value), renMap ρ kvs = kvs.map fun p => (p.1, renVal ρ p.2)
  | [] => rfl
  | (k, v) :: r => by simp only [renMap, List.map_cons, renMap_map r]

theorem withinVals_mem : ∀ {vs : List Value}, WithinVals R vs → ∀ v ∈ vs, Within R v
  | [], _, v, h => by cases h
  | w :: r, hw, v, h => by
    simp only [WithinVals] at hw
    rcases List.mem_cons.1 h with rfl | h
    · exact hw.1
    · exact withinVals_mem hw.2 v h

theorem withinMap_mem : ∀ {vs : List (MapKey × Value)}, WithinMap R vs → ∀ p ∈ vs, Within R p.2
  | [], _, v, h => by cases h
  | (k, w) :: r, hw, v, h => by
    simp only [WithinMap] at hw
    rcases List.mem_cons.1 h with rfl | h
    · exact hw.1
    · exact withinMap_mem hw.2 v h

theorem fmtScalar_across (env : TEnv) {k : Option Kind} (hk : ∀ k', k = some k' → KindIn S T σ R k') (v : Value) :
    fmtScalar env T (k.map (renKind ρ σ)) (renVal ρ v) = fmtScalar env S k v := by
  cases v <;> simp only [renVal, fmtScalar]
  cases k with
  | none => rfl
  | some k =>
    have := (hk k rfl).enum
    cases k <;> simp only [Option.map_some, renKind]
    rw [this _ rfl]

theorem fieldValue_ren (o : FOpts) (v : Value) (s : List Char) : fieldValue o (renVal ρ v) s = fieldValue o v s := by
  cases v <;> simp only [renVal, fieldValue]

theorem mapValueKind_across (h : Across S T ρ σ R) {k : Option Kind} (hk : ∀ k', k = some k' → KindIn S T σ R k') :
    mapValueKind T (k.map (renKind ρ σ)) = (mapValueKind S k).map (Option.map (renKind ρ σ)) ∧
      ∀ k', mapValueKind S k = some k' → ∀ k'', k' = some k'' → KindIn S T σ R k'' := by
  cases k with
  | none => exact ⟨rfl, fun k' h1 k'' h2 => by cases h1; cases h2⟩
  | some k =>
    have hm := (hk k rfl).msg
    cases k <;> simp only [Option.map_some, renKind, mapValueKind] <;>
      first
      | exact ⟨rfl, fun k' h1 k'' h2 => by cases h1; cases h2⟩
      | skip
    rename_i i
    rw [h.field (hm i rfl)]
    cases hf : S.field? i 2 with
    | none => exact ⟨rfl, fun k' h1 k'' h2 => by cases h1⟩
    | some f =>
      refine ⟨rfl, fun k' h1 k'' h2 => ?_⟩
      cases h1; cases h2
      exact .of (h.field_in (hm i rfl) hf)

theorem fieldLabel_across (h : AcrossNamed S T ρ σ R) {f : FieldDesc} (hf : InAcross S T σ R f) :
    fieldLabel T (renField ρ σ f) = fieldLabel S f := by
  by_cases hg : f.group = true
  · unfold fieldLabel
    rw [if_pos (show (renField ρ σ f).group = true from hg), if_pos hg,
      show (renField ρ σ f).kind = renKind ρ σ f.kind from rfl]
    cases hk : f.kind with
    | message i =>
      obtain ⟨md, td, h1, h2, _⟩ := h.msgs i (hf.msg i hk)
      simp only [renKind]
      rw [h1, h2, Option.map_some, Option.map_some, h.name i md td (hf.msg i hk) h1 h2]
    | _ => rfl
  · unfold fieldLabel
    rw [if_neg (show ¬(renField ρ σ f).group = true from hg), if_neg hg]
    rfl

theorem isUnknown_ren (i : Item) : isUnknown (renItem ρ σ i) = isUnknown i := by cases i <;> rfl

theorem transcodeAny_across (h : Across S T ρ σ R) {m : DynMsg} (hm : WithinMsg R m) :
    transcodeAny T (renMsg ρ m) = transcodeAny S m := by
  unfold transcodeAny
  rw [h.encMsg hm]

theorem asAny_across (h : AcrossNamed S T ρ σ R) {md td : MsgDesc} (hn : td.name = md.name) {m : DynMsg}
    (hm : WithinMsg R m) :
    asAny T td (renMsg ρ m) = (asAny S md m).map (Option.map fun p => (p.1, renMsg ρ p.2)) ∧
      ∀ u b, asAny S md m = some (some (u, b)) → WithinMsg R b := by
  unfold asAny
  rw [hn, transcodeAny_across h.toAcross hm]
  split
  · exact ⟨rfl, fun u b h => by cases h⟩
  · cases transcodeAny S m with
    | none => exact ⟨rfl, fun u b h => by cases h⟩
    | some r =>
      cases r with
      | none => exact ⟨rfl, fun u b h => by cases h⟩
      | some p =>
        obtain ⟨u, v⟩ := p
        simp only
        cases utf8Decode u with
        | none => exact ⟨rfl, fun u b h => by cases h⟩
        | some url =>
          simp only
          cases urlName url with
          | none => exact ⟨rfl, fun u b h => by cases h⟩
          | some n =>
            simp only [h.byName]
            cases hd : Schema.msgByName S n with
            | none => exact ⟨rfl, fun u b h => by cases h⟩
            | some d =>
              have hR := h.named n d hd
              simp only [Option.map_some, h.toAcross.decode hR]
              cases hb : decode S d v with
              | error e => exact ⟨rfl, fun u b h => by cases h⟩
              | ok body =>
                refine ⟨rfl, fun u b h' => ?_⟩
                cases h'
                exact (h.toAcross.self.decode hR v).2 _ hb

/-- The two printers of values agree on what is in `R`. -/
def ValAcross (S T : Schema) (ρ σ : Nat → Nat) (R : Nat → Prop) (f g : Value → Option Kind → Option (List Char)) : Prop :=
  ∀ v k, Within R v → (∀ k', k = some k' → KindIn S T σ R k') → g (renVal ρ v) (k.map (renKind ρ σ)) = f v k

theorem fmtItem_across (h : AcrossNamed S T ρ σ R) (o : FOpts) (k ind : Nat)
    {f g : Value → Option Kind → Option (List Char)} (hv : ValAcross S T ρ σ R f g) {i : Item}
    (hi : ItemIn S T σ R i) : fmtItem T o k ind g (renItem ρ σ i) = fmtItem S o k ind f i := by
  cases i with
  | field fd v =>
    have := hv v (some fd.kind) hi.2 (fun k' hk => by cases hk; exact .of hi.1)
    simp only [Option.map_some] at this
    simp only [renItem, fmtItem, fieldLabel_across h hi.1, fieldValue_ren]
    rw [show (renField ρ σ fd).kind = renKind ρ σ fd.kind from rfl, this]
  | ext fd v =>
    have := hv v (some fd.kind) hi.2 (fun k' hk => by cases hk; exact .of hi.1)
    simp only [Option.map_some] at this
    simp only [renItem, fmtItem, fieldValue_ren]
    rw [show (renField ρ σ fd).kind = renKind ρ σ fd.kind from rfl, this]
    rfl
  | unknown u => rfl

theorem fmtFields_across (h : AcrossNamed S T ρ σ R) (o : FOpts) (k ind : Nat)
    {f g : Value → Option Kind → Option (List Char)} (hv : ValAcross S T ρ σ R f g) {d : Nat} {md td : MsgDesc}
    (hd : R d) (hm : S.msg? d = some md) (ht : td.fields = md.fields.map (renField ρ σ))
    (hx : ∀ n, td.getExtension n = (md.getExtension n).map (renField ρ σ)) {fs : FieldSet} (hw : WithinSlots R fs) :
    fmtFields T o k ind g td (renSlots ρ fs) = fmtFields S o k ind f md fs := by
  obtain ⟨h1, h2⟩ := h.items hd hm ht hx hw o
  unfold fmtFields
  rw [h1]
  cases hi : items o S md fs with
  | none => rfl
  | some its =>
    simp only [Option.map_some, fmtDelimited]
    congr 1
    have hin := h2 its hi
    split
    · rw [List.filter_map, show ((fun i => !isUnknown i) ∘ renItem ρ σ) = fun i => !isUnknown i from
        funext fun i => by simp only [Function.comp, isUnknown_ren]]
      exact fmtAll_map _ _ fun i hi => fmtItem_across h o k ind hv (hin i (List.mem_filter.1 hi).1)
    · exact fmtAll_map _ _ fun i hi => fmtItem_across h o k ind hv (hin i hi)

theorem fmtMsg_across (h : AcrossNamed S T ρ σ R) (o : FOpts) (k ind : Nat)
    {f g : Value → Option Kind → Option (List Char)} (hv : ValAcross S T ρ σ R f g) {d : Nat} {md td : MsgDesc}
    (hd : R d) (hm : S.msg? d = some md) (hn : td.name = md.name) (ht : td.fields = md.fields.map (renField ρ σ))
    (hx : ∀ n, td.getExtension n = (md.getExtension n).map (renField ρ σ)) {fs : FieldSet} (hw : WithinSlots R fs) :
    fmtMsg T o k ind g td (ρ d) (renSlots ρ fs) = fmtMsg S o k ind f md d fs := by
  obtain ⟨h1, h2⟩ := asAny_across h hn (m := ⟨d, fs⟩) ⟨hd, hw⟩
  simp only [renMsg] at h1
  have hF := fmtFields_across h o k ind hv hd hm ht hx hw
  unfold fmtMsg
  cases o.expandAny with
  | false => exact hF
  | true =>
    simp only [if_true]
    rw [h1]
    cases ha : asAny S md ⟨d, fs⟩ with
    | none => rfl
    | some r =>
      cases r with
      | none => exact hF
      | some p =>
        obtain ⟨url, body⟩ := p
        have hb := h2 url body ha
        have := hv body.toValue none hb (fun k' hk => by cases hk)
        simp only [DynMsg.toValue, renVal, Option.map_none] at this
        simp only [Option.map_some, DynMsg.toValue, renMsg, this]
        rfl

theorem fmtEntry_across (o : FOpts) (ind : Nat) {f g : Nat → Value → Option (List Char)} {p : MapKey × Value}
    (h : ∀ ind, g ind (renVal ρ p.2) = f ind p.2) : fmtEntry o ind g (p.1, renVal ρ p.2) = fmtEntry o ind f p := by
  obtain ⟨k, v⟩ := p
  simp only [fmtEntry, fieldValue_ren, h]

theorem fmtVal_across (env : TEnv) (h : AcrossNamed S T ρ σ R) (o : FOpts) : ∀ k ind,
    ValAcross S T ρ σ R (fmtVal env S o k ind) (fmtVal env T o k ind)
  | 0, _ => fun v kind _ _ => by simp only [fmtVal]
  | k + 1, ind => by
    intro v kind hw hk
    have ih := fmtVal_across env h o k
    cases v with
    | msg d fs =>
      simp only [Within] at hw
      obtain ⟨md, td, h1, h2, _, h3, h4⟩ := h.msgs d hw.1
      have hn := h.name d md td hw.1 h1 h2
      obtain ⟨i1, _⟩ := h.items hw.1 h1 h3 h4 hw.2 o
      simp only [renVal, fmtVal, h1, h2, i1]
      cases items o S md fs with
      | none => rfl
      | some its =>
        have hall : (its.map (renItem ρ σ)).all (fun i => o.skipUnknown && isUnknown i) =
            its.all (fun i => o.skipUnknown && isUnknown i) := by
          rw [List.all_map]
          congr 1
          funext i
          simp only [Function.comp, isUnknown_ren]
        simp only [Option.map_some, hall]
        split
        · rfl
        · congr 1
          funext ind
          exact fmtMsg_across h o k ind (ih ind) hw.1 h1 hn h3 h4 hw.2
    | list vs =>
      simp only [Within] at hw
      simp only [renVal, fmtVal, fmtList, renVals_map]
      rw [fmtAll_map (renVal ρ) vs fun v hv => ih ind v kind (withinVals_mem hw v hv) hk]
    | map kvs =>
      simp only [Within] at hw
      obtain ⟨m1, m2⟩ := mapValueKind_across h.toAcross hk
      simp only [renVal, fmtVal, m1, renMap_map]
      cases hm : mapValueKind S kind with
      | none => rfl
      | some vk =>
        simp only [Option.map_some, fmtList]
        rw [fmtAll_map (fun p : MapKey × Value => (p.1, renVal ρ p.2)) kvs fun p hp =>
          fmtEntry_across (f := fun ind v => fmtVal env S o k ind v vk) o ind fun ind => ih ind p.2 vk (withinMap_mem hw p hp) (m2 vk hm)]
    | _ =>
      have := fmtScalar_across env hk (S := S) (T := T) (ρ := ρ)
      simp only [renVal, fmtVal]
      refine Eq.trans ?_ (this _)
      simp only [renVal]

/-- Printing a message in the text format. -/
theorem toText_across (env : TEnv) (h : AcrossNamed S T ρ σ R) (o : FOpts) (k : Nat) {m : DynMsg}
    (hm : WithinMsg R m) : toText env T o k (renMsg ρ m) = toText env S o k m := by
  obtain ⟨md, td, h1, h2, _, h3, h4⟩ := h.msgs m.desc hm.1
  have hn := h.name m.desc md td hm.1 h1 h2
  simp only [toText, renMsg, h1, h2]
  exact fmtMsg_across h o k 0 (fmtVal_across env h o k 0) hm.1 h1 hn h3 h4 hm.2

end
end Verif.Text
