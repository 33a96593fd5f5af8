import Verif.Text.Across
import Verif.Json.Ser
/-!
Two schemas that show the same types under other numbers write messages alike as JSON.
-/
set_option autoImplicit false
namespace Verif.Json
open Verif.Wire Verif.Dyn Verif.Pool
open Verif.Text (KindIn renVals_map renMap_map withinVals_mem withinMap_mem)

section
variable {S T : Schema} {ρ σ : Nat → Nat} {R : Nat → Prop}

theorem mapE_map {α β γ : Type} {f : α → Except JErr γ} {g : β → Except JErr γ} (r : α → β) :
    ∀ l : List α, (∀ a ∈ l, g (r a) = f a) → mapE g (l.map r) = mapE f l
  | [], _ => rfl
  | a :: l, h => by
    simp only [List.map_cons, mapE, h a (by simp), mapE_map r l fun b hb => h b (List.mem_cons_of_mem _ hb)]

theorem serEnum_across (env : JEnv) (o : SOpts) {k : Kind} (hk : KindIn S T σ R k) (v : BitVec 32) :
    serEnum env T o (renKind ρ σ k) v = serEnum env S o k v := by
  have := hk.enum
  cases k <;> simp only [renKind, serEnum]
  rw [this _ rfl]

theorem serScalar_across (env : JEnv) (o : SOpts) {k : Kind} (hk : KindIn S T σ R k) (v : Value) :
    serScalar env T o (renKind ρ σ k) (renVal ρ v) = serScalar env S o k v := by
  cases v <;> simp only [renVal, serScalar]
  exact serEnum_across env o hk _

theorem mapKind_across (h : Across S T ρ σ R) {k : Kind} (hk : KindIn S T σ R k) :
    mapKind T (renKind ρ σ k) = (mapKind S k).map (renKind ρ σ) ∧
      ∀ k', mapKind S k = .ok k' → KindIn S T σ R k' := by
  have hm := hk.msg
  cases k <;> simp only [renKind, mapKind] <;>
    first
    | exact ⟨rfl, fun k' h1 => by cases h1⟩
    | skip
  rename_i i
  rw [h.isMapEntry (hm i rfl), h.field (hm i rfl)]
  split
  · cases hf : S.field? i 2 with
    | none => exact ⟨rfl, fun k' h1 => by cases h1⟩
    | some f =>
      refine ⟨rfl, fun k' h1 => ?_⟩
      cases h1
      exact .of (h.field_in (hm i rfl) hf)
  · exact ⟨rfl, fun k' h1 => by cases h1⟩

/-- The two serializers of values agree on what is in `R`. -/
def ValAcross (S T : Schema) (ρ σ : Nat → Nat) (R : Nat → Prop) (f g : Kind → Value → Except JErr Json) : Prop :=
  ∀ k v, Within R v → KindIn S T σ R k → g (renKind ρ σ k) (renVal ρ v) = f k v

theorem serItem_across (o : SOpts) {f g : Kind → Value → Except JErr Json} (hv : ValAcross S T ρ σ R f g) {i : Item}
    (hi : ItemIn S T σ R i) : serItem o g (renItem ρ σ i) = serItem o f i := by
  cases i with
  | field fd v =>
    have := hv fd.kind v hi.2 (.of hi.1)
    simp only [renItem, serItem]
    rw [show (renField ρ σ fd).kind = renKind ρ σ fd.kind from rfl, this]
    rfl
  | ext fd v =>
    have := hv fd.kind v hi.2 (.of hi.1)
    simp only [renItem, serItem]
    rw [show (renField ρ σ fd).kind = renKind ρ σ fd.kind from rfl, this]
    rfl
  | unknown u => rfl

/-- The options of the printer under which the items are those of `iter`. -/
private def itemOpts (skip : Bool) : Text.FOpts := ⟨false, true, true, skip, false⟩

theorem serFields_across (h : Across S T ρ σ R) (o : SOpts) {f g : Kind → Value → Except JErr Json}
    (hv : ValAcross S T ρ σ R f g) {d : Nat} {md td : MsgDesc} (hd : R d) (hm : S.msg? d = some md)
    (ht : td.fields = md.fields.map (renField ρ σ))
    (hx : ∀ n, td.getExtension n = (md.getExtension n).map (renField ρ σ)) {fs : FieldSet} (hw : WithinSlots R fs) :
    serFields T o g td (renSlots ρ fs) = serFields S o f md fs := by
  obtain ⟨h1, h2⟩ := h.items hd hm ht hx hw (itemOpts o.skipDefault)
  have e : ∀ (S : Schema) md fs, Text.items (itemOpts o.skipDefault) S md fs = iter S md (!o.skipDefault) fs :=
    fun _ _ _ => rfl
  rw [e, e] at h1
  rw [e] at h2
  unfold serFields
  rw [h1]
  cases hi : iter S md (!o.skipDefault) fs with
  | none => rfl
  | some its =>
    simp only [Option.map_some]
    rw [mapE_map _ its fun i hm => serItem_across o hv (h2 its hi i hm)]

theorem transcodeTo_across (h : Across S T ρ σ R) (w : Wkt) {m : DynMsg} (hm : WithinMsg R m) :
    transcodeTo T w (renMsg ρ m) = transcodeTo S w m := by
  unfold transcodeTo
  rw [h.encMsg hm]

theorem ofDecode_map {α β : Type} (f : α → β) (r : Wire.R α) : ofDecode (r.map f) = (ofDecode r).map f := by
  cases r with
  | ok a => rfl
  | error e => cases e <;> rfl

theorem ofDecode_ok {α : Type} {r : Wire.R α} {a : α} (h : ofDecode r = .ok a) : r = .ok a := by
  cases r with
  | ok a => cases h; rfl
  | error e => cases e <;> cases h

theorem serAny_across (h : AcrossNamed S T ρ σ R) (o : SOpts) {f g : Kind → Value → Except JErr Json}
    (hv : ValAcross S T ρ σ R f g) {m : DynMsg} (hm : WithinMsg R m) :
    serAny T o g (renMsg ρ m) = serAny S o f m := by
  unfold serAny
  rw [transcodeTo_across h.toAcross .any hm]
  cases transcodeTo S .any m with
  | error e => rfl
  | ok raw =>
    simp only
    cases strOf (stdStr raw 1) with
    | error e => rfl
    | ok url =>
      simp only
      cases Text.urlName url with
      | none => rfl
      | some n =>
        simp only [h.byName]
        cases hd : Text.Schema.msgByName S n with
        | none => rfl
        | some d =>
          have hR := h.named n d hd
          simp only [Option.map_some, h.toAcross.decode hR, ofDecode_map]
          cases hb : ofDecode (decode S d (stdBytes raw 2)) with
          | error e => rfl
          | ok p =>
            have hp := (h.toAcross.self.decode hR _).2 _ (ofDecode_ok hb)
            obtain ⟨md, td, h1, h2, _, h3, h4⟩ := h.msgs d hR
            simp only [Except.map]
            split
            · have := hv (.message d) p.toValue hp ⟨fun i hi => by cases hi; exact hR, fun e he => by cases he⟩
              simp only [renKind, DynMsg.toValue, renVal] at this
              simp only [DynMsg.toValue, renMsg, this]
            · simp only [h1, h2, renMsg]
              rw [serFields_across h.toAcross o hv hR h1 h3 h4 hp.2]

theorem serMsg_across (env : JEnv) (h : AcrossNamed S T ρ σ R) (o : SOpts) (k : Nat)
    {f g : Kind → Value → Except JErr Json} (hv : ValAcross S T ρ σ R f g) {m : DynMsg} (hm : WithinMsg R m) :
    serMsg env T o k g (renMsg ρ m) = serMsg env S o k f m := by
  obtain ⟨md, td, h1, h2, _, h3, h4⟩ := h.msgs m.desc hm.1
  have hn := h.name m.desc md td hm.1 h1 h2
  have hA := serAny_across h o hv hm
  have hF := serFields_across h.toAcross o hv hm.1 h1 h3 h4 hm.2
  have hT := fun w => transcodeTo_across h.toAcross w hm
  unfold serMsg
  rw [show (renMsg ρ m).desc = ρ m.desc from rfl, h1, h2]
  simp only [hn, hA, hT]
  rw [show (renMsg ρ m).fields = renSlots ρ m.fields from rfl, hF]

theorem serVal_across (env : JEnv) (h : AcrossNamed S T ρ σ R) (o : SOpts) : ∀ k,
    ValAcross S T ρ σ R (serVal env S o k) (serVal env T o k)
  | 0 => fun kind v _ _ => by simp only [serVal]
  | k + 1 => by
    intro kind v hw hk
    have ih := serVal_across env h o k
    cases v with
    | msg d fs =>
      simp only [Within] at hw
      have := serMsg_across env h o k ih (m := ⟨d, fs⟩) hw
      simpa only [renVal, serVal, renMsg] using this
    | list vs =>
      simp only [Within] at hw
      simp only [renVal, serVal, renVals_map]
      rw [mapE_map (renVal ρ) vs fun v hv => ih kind v (withinVals_mem hw v hv) hk]
    | map kvs =>
      simp only [Within] at hw
      obtain ⟨m1, m2⟩ := mapKind_across h.toAcross hk
      simp only [renVal, serVal, m1, renMap_map]
      cases hm : mapKind S kind with
      | error e => rfl
      | ok vk =>
        simp only [Except.map]
        rw [mapE_map (f := serEntry (serVal env S o k vk)) (fun p : MapKey × Value => (p.1, renVal ρ p.2)) kvs fun p hp => by
          simp only [serEntry, ih vk p.2 (withinMap_mem hw p hp) (m2 vk hm)]]
    | _ =>
      have := serScalar_across env o hk (S := S) (T := T) (ρ := ρ)
      simp only [renVal, serVal]
      refine Eq.trans ?_ (this _)
      simp only [renVal]

/-- Writing a message as JSON. -/
theorem toJson_across (env : JEnv) (h : AcrossNamed S T ρ σ R) (o : SOpts) (k : Nat) {m : DynMsg}
    (hm : WithinMsg R m) : toJson env T o k (renMsg ρ m) = toJson env S o k m :=
  serMsg_across env h o k (serVal_across env h o k) hm

end
end Verif.Json
