import Verif.Pool.Known
/-!
Paths lead to declarations, also in the pool's own copy of a file.
-/
set_option autoImplicit false
namespace Verif.Pool
open Verif.Wire Verif.Dyn

/-- Forget what the builder fills in. -/
def Item.strip : Item → Item
  | .message m => .message (stripMsg m)
  | .field f => .field (stripField f)
  | .service s => .service (stripService s)
  | .method m => .method (stripMethod m)
  | .extension f => .extension (stripField f)
  | x => x

theorem stripMsg_name (m : MsgP) : (stripMsg m).name = m.name := by rw [stripMsg_eq]

theorem Item.strip_name (x : Item) : x.strip.name = x.name := by
  cases x <;> simp only [Item.strip, Item.name, stripMsg_name, stripField, stripService, stripMethod]

theorem get_of_map {α β : Type} {s : α → β} {a b : List α} (h : a.map s = b.map s) {i : Nat} {x : α}
    (hx : b[i]? = some x) : ∃ y, a[i]? = some y ∧ s y = s x := by
  have : (b.map s)[i]? = some (s x) := by rw [List.getElem?_map, hx]; rfl
  rw [← h, List.getElem?_map, Option.map_eq_some_iff] at this
  exact this

/-- Filling in keeps all declarations in place. -/
theorem Has.strip {a b : FileP} (h : stripFile a = stripFile b) {path : Path} {s : Name} {x : Item}
    (hx : Has b path s x) : ∃ y, Has a path s y ∧ y.strip = x.strip := by
  have hf := h
  rw [stripFile_eq, stripFile_eq] at hf
  simp only [FileP.mk.injEq] at hf
  obtain ⟨_, hpkg, _, _, _, hmsgs, henums, hsvcs, hexts, _⟩ := hf
  induction hx with
  | message i m hi =>
    obtain ⟨y, h1, h2⟩ := get_of_map hmsgs hi
    exact ⟨.message y, by rw [← hpkg]; exact .message i y h1, by simp only [Item.strip, h2]⟩
  | enum i m hi =>
    exact ⟨.enum m, by rw [← hpkg]; exact .enum i m (by rw [henums]; exact hi), rfl⟩
  | service i m hi =>
    obtain ⟨y, h1, h2⟩ := get_of_map hsvcs hi
    exact ⟨.service y, by rw [← hpkg]; exact .service i y h1, by simp only [Item.strip, h2]⟩
  | extension i m hi =>
    obtain ⟨y, h1, h2⟩ := get_of_map hexts hi
    exact ⟨.extension y, by rw [← hpkg]; exact .extension i y h1, by simp only [Item.strip, h2]⟩
  | nested path s m i n _ hi ih =>
    obtain ⟨y, h1, h2⟩ := ih
    cases y <;> simp only [Item.strip, reduceCtorEq, Item.message.injEq] at h2
    rename_i m'
    rw [stripMsg_eq, stripMsg_eq m] at h2
    simp only [MsgP.mk.injEq] at h2
    obtain ⟨z, g1, g2⟩ := get_of_map h2.2.2.2.1 hi
    exact ⟨.message z, by rw [← h2.1]; exact .nested _ _ _ i z h1 g1, by simp only [Item.strip, g2]⟩
  | field path s m i n _ hi ih =>
    obtain ⟨y, h1, h2⟩ := ih
    cases y <;> simp only [Item.strip, reduceCtorEq, Item.message.injEq] at h2
    rename_i m'
    rw [stripMsg_eq, stripMsg_eq m] at h2
    simp only [MsgP.mk.injEq] at h2
    obtain ⟨z, g1, g2⟩ := get_of_map h2.2.1 hi
    exact ⟨.field z, by rw [← h2.1]; exact .field _ _ _ i z h1 g1, by simp only [Item.strip, g2]⟩
  | oneof path s m i n _ hi ih =>
    obtain ⟨y, h1, h2⟩ := ih
    cases y <;> simp only [Item.strip, reduceCtorEq, Item.message.injEq] at h2
    rename_i m'
    rw [stripMsg_eq, stripMsg_eq m] at h2
    simp only [MsgP.mk.injEq] at h2
    exact ⟨.oneof n, by rw [← h2.1]; exact .oneof _ _ _ i n h1 (by rw [h2.2.2.2.2.2.2.1]; exact hi), rfl⟩
  | enumIn path s m i n _ hi ih =>
    obtain ⟨y, h1, h2⟩ := ih
    cases y <;> simp only [Item.strip, reduceCtorEq, Item.message.injEq] at h2
    rename_i m'
    rw [stripMsg_eq, stripMsg_eq m] at h2
    simp only [MsgP.mk.injEq] at h2
    exact ⟨.enum n, by rw [← h2.1]; exact .enumIn _ _ _ i n h1 (by rw [h2.2.2.2.2.1]; exact hi), rfl⟩
  | extensionIn path s m i n _ hi ih =>
    obtain ⟨y, h1, h2⟩ := ih
    cases y <;> simp only [Item.strip, reduceCtorEq, Item.message.injEq] at h2
    rename_i m'
    rw [stripMsg_eq, stripMsg_eq m] at h2
    simp only [MsgP.mk.injEq] at h2
    obtain ⟨z, g1, g2⟩ := get_of_map h2.2.2.1 hi
    exact ⟨.extension z, by rw [← h2.1]; exact .extensionIn _ _ _ i z h1 g1, by simp only [Item.strip, g2]⟩
  | value path s m i n _ hi ih =>
    obtain ⟨y, h1, h2⟩ := ih
    cases y <;> simp only [Item.strip, reduceCtorEq, Item.enum.injEq] at h2
    subst h2
    exact ⟨_, .value _ _ _ i n h1 hi, rfl⟩
  | method path s m i n _ hi ih =>
    obtain ⟨y, h1, h2⟩ := ih
    cases y <;> simp only [Item.strip, reduceCtorEq, Item.service.injEq] at h2
    rename_i m'
    simp only [stripService, ServiceP.mk.injEq] at h2
    obtain ⟨z, g1, g2⟩ := get_of_map h2.2 hi
    exact ⟨.method z, by rw [← h2.1]; exact .method _ _ _ i z h1 g1, by simp only [Item.strip, g2]⟩

/-! Following a path. -/

theorem findExt_in {f : FileP} {path : Path} {m : MsgP} {e : FieldP} {j : Nat} (hp : path ≠ [])
    (h : findMsg f path = some m) (he : m.exts[j]? = some e) :
    findExt f (path ++ [Tag.msgExtension, j]) = some e := by
  unfold findExt
  split
  · next x i hx =>
    have := congrArg List.length hx
    simp only [List.length_append, List.length_cons, List.length_nil] at this
    have : path.length = 0 := by omega
    exact absurd (List.eq_nil_of_length_eq_zero this) hp
  · rw [show (path ++ [Tag.msgExtension, j]).take ((path ++ [Tag.msgExtension, j]).length - 2) = path by
      simp only [List.length_append, List.length_cons, List.length_nil]
      rw [show path.length + (0 + 1 + 1) - 2 = path.length by omega]
      exact List.take_left' rfl]
    rw [h]
    simp [he]

/-- What following the path of a declaration gives. -/
def Found (f : FileP) (path : Path) : Item → Prop
  | .message m => path ≠ [] ∧ findMsg f path = some m
  | .enum e => findEnum f path = some e
  | .extension x => findExt f path = some x
  | .service s => ∃ i, path = [6, i] ∧ f.services[i]? = some s
  | .field x => ∃ q i m, path = q ++ [2, i] ∧ findMsg f q = some m ∧ m.fields[i]? = some x
  | .oneof x => ∃ q i m, path = q ++ [8, i] ∧ findMsg f q = some m ∧ m.oneofs[i]? = some x
  | .value v => ∃ q i e, path = q ++ [2, i] ∧ findEnum f q = some e ∧ e.values[i]? = some v
  | .method m => ∃ j i s, path = [6, j, 2, i] ∧ f.services[j]? = some s ∧ s.methods[i]? = some m

theorem Has.found {f : FileP} {path : Path} {s : Name} {x : Item} (h : Has f path s x) :
    Found f path x := by
  induction h with
  | message i m hi => exact ⟨by simp, findMsg_top hi⟩
  | enum i m hi => exact findEnum_top hi
  | service i m hi => exact ⟨i, rfl, hi⟩
  | extension i m hi => simp [Found, findExt, hi]
  | nested path s m i n _ hi ih => exact ⟨by simp, findMsg_nested ih.2 hi⟩
  | field path s m i n _ hi ih => exact ⟨_, i, m, rfl, ih.2, hi⟩
  | oneof path s m i n _ hi ih => exact ⟨_, i, m, rfl, ih.2, hi⟩
  | enumIn path s m i n _ hi ih => exact findEnum_in ih.1 ih.2 hi
  | extensionIn path s m i n _ hi ih => exact findExt_in ih.1 ih.2 hi
  | value path s m i n _ hi ih => exact ⟨_, i, m, rfl, ih, hi⟩
  | method path s m i n _ hi ih =>
    obtain ⟨j, rfl, hj⟩ := ih
    exact ⟨j, i, m, rfl, hj, hi⟩

section
variable {env : Env} {acc : List FileP} {p : Pool}

/-- The pool's copy of a file declares what the traversal visited. -/
theorem Desc.copy (h : Desc env acc p) {e : Event} (he : e ∈ visit {} acc) {fi : Nat}
    {path : Path} {full : Name} {x : Item} (hx : e.item = some (fi, path, full, x)) :
    ∃ f fd s y, acc[fi]? = some f ∧ p.files[fi]? = some fd ∧ Has f path s x ∧
      Has fd.prost path s y ∧ y.strip = x.strip ∧ full = qualified s y.name ∧ y.name = x.name := by
  obtain ⟨j, f, s, h1, h2, h3, h4⟩ := visited_has he hx
  have hj : fi = j := by
    rw [h1]; show 0 + j = j; omega
  subst hj
  obtain ⟨fd, g1, _, g2, g3, _⟩ := h.file_at h2
  rw [← g3] at g2
  obtain ⟨y, k1, k2⟩ := h4.strip g2
  have hn : y.name = x.name := by rw [← y.strip_name, k2, x.strip_name]
  exact ⟨f, fd, s, y, h2, g1, h4, k1, k2, by rw [hn]; exact h3, hn⟩

end
end Verif.Pool
