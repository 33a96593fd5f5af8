import Verif.Json.Round
/-!
Messages without well-known types can be written.
-/
set_option autoImplicit false
namespace Verif.Json
open Verif.Wire Verif.Dyn Verif.Pool

/-- Not one of the types with a JSON form of their own. -/
def Ordinary (S : Schema) (m : DynMsg) : Prop :=
  ∀ md, S.msg? m.desc = some md → wkt? md.name = none

theorem mapE_total {α β : Type} {f : α → Except JErr β} {xs : List α} (h : ∀ a ∈ xs, ∃ b, f a = .ok b) :
    ∃ ys, mapE f xs = .ok ys := by
  induction xs with
  | nil => exact ⟨[], rfl⟩
  | cons a r ih =>
    obtain ⟨b, hb⟩ := h a (by simp)
    obtain ⟨ys, hy⟩ := ih (fun x hx => h x (List.mem_cons_of_mem _ hx))
    exact ⟨b :: ys, by simp only [mapE, hb, hy]⟩

theorem map_total {α β : Type} {g : α → β} {x : Except JErr α} (h : ∃ a, x = .ok a) : ∃ b, x.map g = .ok b := by
  obtain ⟨a, rfl⟩ := h
  exact ⟨g a, rfl⟩

theorem sound_total {α : Type} {P : α → Prop} {x : Except JErr α} (h : Sound false P x)
    (he : x ≠ .error .err) (hs : x ≠ .error .stack) : ∃ a, x = .ok a := by
  cases x with
  | ok a => exact ⟨a, rfl⟩
  | error e => cases e <;> first | exact absurd rfl he | exact absurd rfl hs | exact absurd rfl h.1

section
variable {env : JEnv} {S : Schema} {so : SOpts}

theorem strOf_noErr (b : Bytes) : strOf b ≠ .error .err ∧ strOf b ≠ .error .stack := by
  unfold strOf
  split <;> exact ⟨nofun, nofun⟩

theorem serEnum_noErr (kind : Kind) (v : BitVec 32) :
    serEnum env S so kind v ≠ .error .err ∧ serEnum env S so kind v ≠ .error .stack := by
  unfold serEnum
  split
  · split
    · exact ⟨nofun, nofun⟩
    · split
      · exact ⟨nofun, nofun⟩
      · split
        · exact ⟨nofun, nofun⟩
        · split <;> exact ⟨nofun, nofun⟩
  · exact ⟨nofun, nofun⟩

theorem serScalar_total {f : FieldDesc} (hf : kindOk S f.kind = true) (hm : f.kind.isMessage = false)
    (hc : f.card ≠ .repeated) {v : Value} (hv : confVal S f v = true) :
    ∃ j, serScalar env S so f.kind v = .ok j := by
  refine sound_total (serScalar_sound hf hm hc hv) ?_ ?_
  all_goals
    unfold serScalar
    split
    all_goals first
      | (intro h; cases h; done)
      | exact (serEnum_noErr _ _).1
      | exact (serEnum_noErr _ _).2
      | (rename_i b; have := strOf_noErr b; cases h : strOf b <;> simp_all [Except.map])

theorem serKey_total {kd : FieldDesc} {k : MapKey} (h : keyOk kd.kind k = true) : ∃ s, serKey k = .ok s := by
  refine sound_total (serKey_sound h) ?_ ?_
  all_goals
    cases k <;> first | exact (strOf_noErr _).1 | exact (strOf_noErr _).2 | (intro h; cases h; done)

/-- The stack a value needs. -/
def need (f : FieldDesc) (v : Value) : Nat := if f.card = .repeated then 2 * depthVal v + 2 else 2 * depthVal v + 1

theorem serFields_total (hS : S.wf = true) {k : Nat}
    (ih : ∀ (f : FieldDesc) (v : Value), kindOk S f.kind = true → confVal S f v = true →
      keepVal f32Ok (Ordinary S) v → need f v ≤ k → ∃ j, serVal env S so k f.kind v = .ok j)
    {d : Nat} {md : MsgDesc} {fs : FieldSet} (hC : Conf S ⟨d, fs⟩ md) (hp : plainDefaults md = true)
    (hk : keepSlots f32Ok (Ordinary S) fs) (hd : 2 * depthSlots fs + 2 ≤ k) :
    ∃ es, serFields S so (serVal env S so k) md fs = .ok es := by
  obtain ⟨its, hits⟩ := iter_total hS hC.desc (!so.skipDefault) fs
  have hL := iter_listing hS hC hits
  unfold serFields
  rw [hits]
  refine map_total (mapE_total (fun it hit => ?_))
  have one : ∀ e, it.ent = some e → ∃ j, serVal env S so k e.f.kind e.v = .ok j := by
    intro e he
    have hm : e ∈ its.filterMap Item.ent := List.mem_filterMap.2 ⟨it, hit, he⟩
    refine ih e.f e.v (hL.wf hS hC.desc hm).kind (hL.conf e hm) (listing_keep (Q := f32Ok) (by decide) hS hC.desc hp hL hk hm) ?_
    have := hL.depth hS hC.desc hm
    unfold need
    split <;> omega
  cases it with
  | field f v => exact map_total (one _ rfl)
  | ext f v => exact map_total (one _ rfl)
  | unknown u => exact ⟨none, rfl⟩

theorem depthVals_mem {v : Value} {vs : List Value} (h : v ∈ vs) : depthVal v ≤ depthVals vs := by
  induction vs with
  | nil => cases h
  | cons x r ih =>
    simp only [depthVals]
    rcases List.mem_cons.1 h with rfl | h
    · omega
    · have := ih h; omega

theorem depthMap_mem {p : MapKey × Value} {kvs : List (MapKey × Value)} (h : p ∈ kvs) :
    depthVal p.2 ≤ depthMap kvs := by
  induction kvs with
  | nil => cases h
  | cons x r ih =>
    obtain ⟨k, v⟩ := x
    simp only [depthMap]
    rcases List.mem_cons.1 h with rfl | h
    · simp only; omega
    · have := ih h; omega

theorem serVal_total (hS : S.wf = true) (hJ : jsonWf S = true) (k : Nat) :
    ∀ (f : FieldDesc) (v : Value), kindOk S f.kind = true → confVal S f v = true →
      keepVal f32Ok (Ordinary S) v → need f v ≤ k → ∃ j, serVal env S so k f.kind v = .ok j := by
  induction k with
  | zero =>
    intro f v _ _ _ h
    unfold need at h
    split at h <;> omega
  | succ k ih =>
    intro f v hf hv hk hn
    cases v with
    | msg d fs =>
      obtain ⟨hc, hkd, hm⟩ := confMsg_of_confVal hv
      obtain ⟨md, hC⟩ := confMsg_iff.1 hm
      simp only [keepVal] at hk
      have hw := hk.1 md hC.desc
      have hmd : S.msg? d = some md := hC.desc
      simp only [need, if_neg hc, depthVal] at hn
      simp only [serVal, serMsg, hmd, hw]
      exact map_total (serFields_total hS ih hC (jsonWf_msg hJ hmd hw).plain hk.2 (by omega))
    | list vs =>
      simp only [confVal, Bool.and_eq_true] at hv
      have hc : f.card = .repeated := by
        have := hv.1
        simp only [isList, Bool.and_eq_true, beq_iff_eq] at this
        exact this.1
      simp only [need, if_pos hc, depthVal] at hn
      simp only [serVal]
      refine map_total (mapE_total (fun a ha => ?_))
      refine ih f.elem a hf ((confVals_iff vs).1 hv.2 a ha) (keepVals_mem hk ha) ?_
      have := depthVals_mem ha
      simp only [need, if_neg elem_card]
      omega
    | map kvs =>
      simp only [confVal, Bool.and_eq_true] at hv
      obtain ⟨hc, i, hki, hme⟩ := isMap_iff.1 hv.1
      obtain ⟨kd, vd, hE⟩ := Schema.wf_entry hS hme
      have hc2 := hv.2
      simp only [hki, hE.kv, Bool.and_eq_true] at hc2
      simp only [need, if_pos hc, depthVal] at hn
      simp only [serVal, hki, mapKind_eq hE hme]
      refine map_total (mapE_total (fun p hp => ?_))
      obtain ⟨c1, c2⟩ := (confMap_iff kvs).1 hc2.2 p hp
      obtain ⟨s, hs⟩ := serKey_total c1
      obtain ⟨hvw, -, hvc⟩ := hE.val
      have := depthMap_mem hp
      obtain ⟨j, hj⟩ := ih vd p.2 hvw.kind c2 (keepMap_mem hk hp) (by
        simp only [need, if_neg hvc]; omega)
      exact ⟨(s, j), by simp only [serEntry, hs, hj]⟩
    | _ =>
      have hc : f.card ≠ .repeated ∧ f.kind.isMessage = false := by
        simp only [confVal, Bool.and_eq_true, bne_iff_ne] at hv
        refine ⟨hv.1, ?_⟩
        cases hkd : f.kind <;> first | rfl | (rw [hkd] at hv; simp [scalarOk, Value.isValid] at hv)
      exact serScalar_total hf hc.2 hc.1 hv

/-- A message without well-known types can be written, given enough stack. -/
theorem toJson_total (hS : S.wf = true) (hJ : jsonWf S = true) {m : DynMsg} (hm : confMsg S m = true)
    (ho : Ordinary S m) (hk : keepSlots f32Ok (Ordinary S) m.fields) {k : Nat} (hd : 2 * depthMsg m + 2 ≤ k) :
    ∃ j, toJson env S so k m = .ok j := by
  obtain ⟨md, hC⟩ := confMsg_iff.1 hm
  have hmd : S.msg? m.desc = some md := hC.desc
  have hw := ho md hmd
  simp only [toJson, serMsg, hmd, hw]
  exact map_total (serFields_total hS (serVal_total hS hJ k) hC (jsonWf_msg hJ hmd hw).plain hk hd)

end

end Verif.Json
