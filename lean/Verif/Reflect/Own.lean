import Verif.Reflect.Types
import Verif.Props.PoolShows
/-!
The pool that has the library's own files and nothing else.
-/
set_option autoImplicit false
namespace Verif.Reflect
open Verif.Wire Verif.Dyn Verif.Pool Verif.Json Verif.Text Verif.Props

/-! ### Checks of the table -/

/-- No extensions, `ListShaped` fields without `extendee`. -/
def ownShaped : Bool := wktFiles.all fun f => f.exts.isEmpty &&
  MsgP.allOf (fun m => m.fields.all (fun x => listShaped x && x.extendee.isNone) && m.exts.isEmpty) f.messages

set_option maxRecDepth 100000 in
theorem ownShaped_true : ownShaped = true := by decide +kernel

set_option maxRecDepth 100000 in
theorem ownNamed_true : wktFiles.all fileNamed = true := by decide +kernel

/-- Types are given by absolute names; JSON names are no other field's name. -/
def ownMsg (full : Name) (m : MsgP) : Bool :=
  m.fields.all (fun x => x.ty != .group && (jsonOf x).head? != some '[' && (x.typeName.isEmpty || x.typeName.head? == some '.') &&
    (x.typeName != '.' :: nullName || (wkt? full).isSome)) &&
  m.fields.zipIdx.all (fun a => m.fields.zipIdx.all fun b => jsonOf a.1 != b.1.name || a.2 == b.2) &&
  (m.options != some (some true) || (entryShaped m && entryNamed m && (wkt? full).isNone))

def ownMsgs : Bool := (visit {} wktFiles).all fun
  | .message _ full _ _ _ m => ownMsg full m
  | _ => true

set_option maxRecDepth 100000 in
theorem ownMsgs_true : ownMsgs = true := by decide +kernel

attribute [local irreducible] wktFiles

/-! ### What they give -/

mutual
theorem allIn_mono {P Q : MsgP → Bool} (h : ∀ m, P m = true → Q m = true) :
    (m : MsgP) → MsgP.allIn P m = true → MsgP.allIn Q m = true
  | ⟨_, _, _, nested, _, _, _, _, _, _⟩, hm => by
    simp only [MsgP.allIn, Bool.and_eq_true] at hm ⊢
    exact ⟨h _ hm.1, allOf_mono h hm.2⟩
theorem allOf_mono {P Q : MsgP → Bool} (h : ∀ m, P m = true → Q m = true) :
    {l : List MsgP} → MsgP.allOf P l = true → MsgP.allOf Q l = true
  | [], _ => rfl
  | m :: ms, hm => by
    simp only [MsgP.allOf, Bool.and_eq_true] at hm ⊢
    exact ⟨allIn_mono h m hm.1, allOf_mono h hm.2⟩
end

section
variable {env : Env} (hsr : SearchOk env.search) {p : Pool}
include hsr

/-- A message of the pool and its declaration. -/
theorem own_message (hk : KeepsEntry env) (h : Hist env wktFiles p) {k : Nat} {md : MsgD} (hm : p.messages[k]? = some md) :
    ∃ g m, wktFiles[md.id.file]? = some g ∧ findMsg g md.id.path = some m ∧ ownMsg md.id.fullName m = true ∧
      p.isMapEntry k = .ok (m.options == some (some true)) ∧
      ∀ (i : Nat) d, md.fields[i]? = some d → ∃ x, m.fields[i]? = some x ∧ d.id.name = x.name ∧ d.jsonName = jsonOf x ∧
        KindOk p x d.kind d.group ∧ ∀ n, x.typeName = '.' :: n → KindNamed p n d.kind := by
  have hD := h.desc hsr
  obtain ⟨path, full, fi, parent, m, he, hid, hl, _, hf⟩ := hD.fields_of hm
  obtain ⟨y, hst⟩ := hD.stands he rfl hid
  have hyy : ∃ y', y = .message y' := by
    obtain ⟨_, _, _, _, _, _, _, h5, _⟩ := hst
    cases y <;> simp only [Item.strip, reduceCtorEq, Item.message.injEq] at h5
    exact ⟨_, rfl⟩
  obtain ⟨y', rfl⟩ := hyy
  obtain ⟨f, fd, s, a1, a2, a3, a4, a5, a6, a7⟩ := id hst
  have hB : ownMsg full m = true := by
    have := ownMsgs_true
    simp only [ownMsgs, List.all_eq_true] at this
    exact this _ he
  have hfull : md.id.fullName = full := by rw [hid]; rfl
  refine ⟨f, m, a1, a3.found.2, by rw [hfull]; exact hB, Hist.entry hsr hk h hm hst, fun i d hd => ?_⟩
  have hlt : i < m.fields.length := hl ▸ getElem?_lt hd
  have hx := List.getElem?_eq_getElem hlt
  generalize m.fields[i] = x at hx
  obtain ⟨fd', d', e1, e2, _, hI⟩ := hf i x hx
  rw [hd] at e2; cases e2
  obtain ⟨md2, d2, n1, n2, hnm⟩ := full_named hsr h _ ((visit_full _ {} _ he).1 i x hx)
  rw [hm] at n1; cases n1
  rw [hd] at n2; cases n2
  exact ⟨x, hx, by rw [hI.id]; exact Ident.mk'_name _ _ _ _, hI.json, hI.kind, hnm⟩

theorem own_no_extensions (h : Hist env wktFiles p) : p.extensions = [] := by
  rw [List.eq_nil_iff_forall_not_mem]
  intro d hd
  obtain ⟨e, he⟩ := List.getElem?_of_mem hd
  obtain ⟨x, _, _, _, _, ⟨f, _, s, k1, _, k3, _⟩, _⟩ := C25_extensions hsr h he
  have := ownShaped_true
  simp only [ownShaped, List.all_eq_true, Bool.and_eq_true, List.isEmpty_iff] at this
  obtain ⟨t1, t2⟩ := this f (List.mem_of_getElem? k1)
  generalize d.id.path = pa at k3
  cases k3 with
  | extension i x hi => rw [t1] at hi; cases hi
  | extensionIn path s m i x hm hi =>
    have := MsgP.allIn_self (MsgP.allIn_has t2 hm)
    simp only [Bool.and_eq_true, List.isEmpty_iff] at this
    rw [this.2] at hi; cases hi

theorem own_shaped (hk : KeepsEntry env) (h : Hist env wktFiles p) : Shaped wktFiles p := by
  apply shaped_ok
  simp only [shaped, Bool.and_eq_true, List.all_eq_true]
  refine ⟨fun f hf => ?_, fun x hx => ?_⟩
  · have := ownShaped_true
    simp only [ownShaped, List.all_eq_true, Bool.and_eq_true, List.isEmpty_iff] at this
    obtain ⟨t1, t2⟩ := this f hf
    refine ⟨by rw [t1]; simp, ?_⟩
    refine allOf_mono (fun m hm => ?_) t2
    simp only [Bool.and_eq_true, List.isEmpty_iff] at hm
    rw [hm.2]
    simpa using hm.1
  · obtain ⟨md, k⟩ := x
    rw [List.mem_zipIdx_iff_getElem?] at hx
    obtain ⟨g, m, h1, h2, h3, h4, _⟩ := own_message hsr hk h hx
    simp only [h1, h2, h4]
    cases ho : m.options == some (some true)
    · rfl
    · simp only [ownMsg, Bool.and_eq_true, bne, ho, Bool.not_true, Bool.false_or] at h3
      exact h3.2.1.1

theorem own_named (hk : KeepsEntry env) (h : Hist env wktFiles p) : Named wktFiles p := by
  apply named_ok
  simp only [named, Bool.and_eq_true]
  refine ⟨⟨ownNamed_true, ?_⟩, ?_⟩
  · simp only [List.all_eq_true]
    intro md hmd d hd
    obtain ⟨k, hm⟩ := List.getElem?_of_mem hmd
    obtain ⟨i, hi⟩ := List.getElem?_of_mem hd
    obtain ⟨g, m, h1, h2, h3, h4, h5⟩ := own_message hsr hk h hm
    obtain ⟨x, x1, _, _, x4, _⟩ := h5 i d hi
    simp only [ownMsg, Bool.and_eq_true, List.all_eq_true] at h3
    have := (h3.1.1 x (List.mem_of_getElem? x1)).1.1.1
    simp only [bne_iff_ne] at this
    have hg : d.group = false := by
      generalize d.kind = kd, d.group = gr at x4
      cases x4 with
      | message t _ _ => exact decide_eq_false this
      | _ => rfl
    simp only [groupNamed, hg, Bool.not_false, Bool.true_or]
  · simp only [List.all_eq_true]
    rintro ⟨md, k⟩ hx
    rw [List.mem_zipIdx_iff_getElem?] at hx
    obtain ⟨g, m, h1, h2, h3, h4, _⟩ := own_message hsr hk h hx
    simp only [h1, h2, h4]
    cases ho : m.options == some (some true)
    · rfl
    · simp only [ownMsg, Bool.and_eq_true, bne, ho, Bool.not_true, Bool.false_or] at h3
      exact h3.2.1.2

theorem own_keyed (hk : KeepsEntry env) (h : Hist env wktFiles p) : Keyed p where
  bracket k md a hm ha := by
    obtain ⟨i, hi⟩ := List.getElem?_of_mem ha
    obtain ⟨g, m, h1, h2, h3, h4, h5⟩ := own_message hsr hk h hm
    obtain ⟨x, x1, _, x3, _⟩ := h5 i a hi
    simp only [ownMsg, Bool.and_eq_true, List.all_eq_true] at h3
    have := (h3.1.1 x (List.mem_of_getElem? x1)).1.1.2
    rw [x3]; simpa using this
  null k md a e ed hm hw ha hkind he hn := by
    obtain ⟨i, hi⟩ := List.getElem?_of_mem ha
    obtain ⟨g, m, h1, h2, h3, h4, h5⟩ := own_message hsr hk h hm
    obtain ⟨x, x1, _, _, x4, x5⟩ := h5 i a hi
    simp only [ownMsg, Bool.and_eq_true, List.all_eq_true] at h3
    obtain ⟨⟨_, y2⟩, y3⟩ := h3.1.1 x (List.mem_of_getElem? x1)
    rw [hkind] at x4 x5
    have hne : x.typeName ≠ [] := by
      generalize a.group = gr at x4
      cases x4 with
      | scalar _ _ h0 => cases hty : x.ty <;> rw [hty] at h0 <;> cases h0
      | enum _ h0 _ => exact h0
    cases ht : x.typeName with
    | nil => exact hne ht
    | cons c n =>
      simp only [ht, List.isEmpty_cons, Bool.false_or, List.head?_cons, beq_iff_eq, Option.some.injEq] at y2
      subst y2
      obtain ⟨ed', z1, z2⟩ := x5 n ht
      rw [he] at z1; cases z1
      rw [hn] at z2
      simp only [ht, z2, bne_self_eq_false, Bool.false_or, hw, Option.isSome_none, Bool.false_eq_true] at y3
  nullExt x d md e ed hx := by
    rw [own_no_extensions hsr h] at hx; cases hx
  entry k md hm he := by
    obtain ⟨g, m, h1, h2, h3, h4, h5⟩ := own_message hsr hk h hm
    rw [h4] at he
    simp only [Except.ok.injEq] at he
    simp only [ownMsg, Bool.and_eq_true, bne, he, Bool.not_true, Bool.false_or] at h3
    simpa using h3.2.2

theorem own_crossless (hk : KeepsEntry env) (h : Hist env wktFiles p) : Crossless p := by
  intro k md a b hm ha hb hab
  obtain ⟨i, hi⟩ := List.getElem?_of_mem ha
  obtain ⟨j, hj⟩ := List.getElem?_of_mem hb
  obtain ⟨g, m, h1, h2, h3, h4, h5⟩ := own_message hsr hk h hm
  obtain ⟨x, x1, _, x3, _⟩ := h5 i a hi
  obtain ⟨y, y1, y2, _⟩ := h5 j b hj
  simp only [ownMsg, Bool.and_eq_true, List.all_eq_true] at h3
  have := h3.1.2 (x, i) (by rw [List.mem_zipIdx_iff_getElem?]; exact x1) (y, j)
    (by rw [List.mem_zipIdx_iff_getElem?]; exact y1)
  simp only [Bool.or_eq_true, bne_iff_ne, beq_iff_eq] at this
  have := this.resolve_left fun hne => hne (by rw [← x3, ← y2]; exact hab)
  subst this
  rw [hi] at hj; exact Option.some.inj hj

theorem own_apart (h : Hist env wktFiles p) : Apart p := by
  intro e e' d d' he
  rw [own_no_extensions hsr h] at he; cases he

end

end Verif.Reflect
