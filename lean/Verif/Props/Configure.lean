import Verif.Derive.Config
import Verif.Props.PoolNames
import Verif.Props.PoolExample
/-!
C87: the derive macro and the attributes that `prost-reflect-build` has put on the generated types.
-/
set_option autoImplicit false
namespace Verif.Props
open Verif.Wire Verif.Dyn Verif.Pool Verif.Derive

/-! ### The macro -/

/-- The last value given for a key. -/
def IsLast (as : List (Name × Val)) (k : Name) (v : Val) : Prop :=
  ∃ a b, as = a ++ (k, v) :: b ∧ ∀ x ∈ b, x.1 ≠ k

/-- An argument the macro takes. -/
def Takes (x : Name × Val) : Prop :=
  ((x.1 = poolKey ∨ x.1 = bytesKey) ∧ ∃ s, x.2 = .str s) ∨ (x.1 = nameKey ∧ x.2 ≠ .none)

theorem IsLast.snoc_same {as : List (Name × Val)} {k : Name} {v w : Val} : IsLast (as ++ [(k, v)]) k w ↔ w = v := by
  constructor
  · rintro ⟨a, b, e, hb⟩
    rcases List.eq_nil_or_concat b with rfl | ⟨b', x, rfl⟩
    · have := (List.append_inj' e rfl).2
      cases this; rfl
    · rw [List.concat_eq_append, show a ++ (k, w) :: (b' ++ [x]) = (a ++ (k, w) :: b') ++ [x] by simp] at e
      have := (List.append_inj' e rfl).2
      cases this
      exact absurd rfl (hb (k, v) (by simp))
  · rintro rfl
    exact ⟨as, [], rfl, nofun⟩

theorem IsLast.snoc_other {as : List (Name × Val)} {k k' : Name} {v w : Val} (hk : k' ≠ k) :
    IsLast (as ++ [(k', v)]) k w ↔ IsLast as k w := by
  constructor
  · rintro ⟨a, b, e, hb⟩
    rcases List.eq_nil_or_concat b with rfl | ⟨b', x, rfl⟩
    · have := (List.append_inj' e rfl).2
      cases this; exact absurd rfl hk
    · rw [List.concat_eq_append, show a ++ (k, w) :: (b' ++ [x]) = (a ++ (k, w) :: b') ++ [x] by simp] at e
      obtain ⟨e1, e2⟩ := List.append_inj' e rfl
      exact ⟨a, b', e1, fun y hy => hb y (by simp [hy])⟩
  · rintro ⟨a, b, rfl, hb⟩
    refine ⟨a, b ++ [(k', v)], by simp, fun x hx => ?_⟩
    rcases List.mem_append.mp hx with hx | hx
    · exact hb x hx
    · rw [List.mem_singleton.mp hx]; exact hk

theorem IsLast.nil {k : Name} {v : Val} : ¬ IsLast [] k v := by
  rintro ⟨a, b, e, _⟩
  cases a <;> cases e

/-- The arguments read so far. -/
structure ArgsRead (as : List (Name × Val)) (a : Args) : Prop where
  takes : ∀ x ∈ as, Takes x
  name : ∀ v, a.name = some v ↔ IsLast as nameKey v
  pool : ∀ e, a.pool = some e ↔ IsLast as poolKey (.str e)
  bytes : ∀ e, a.bytes = some e ↔ IsLast as bytesKey (.str e)

theorem keys_ne : nameKey ≠ poolKey ∧ nameKey ≠ bytesKey ∧ poolKey ≠ bytesKey := by decide +kernel

theorem ArgsRead.put {as : List (Name × Val)} {a a' : Args} (h : ArgsRead as a) {x : Name × Val} (hx : a.put x = .ok a') :
    ArgsRead (as ++ [x]) a' := by
  obtain ⟨n1, n2, n3⟩ := keys_ne
  obtain ⟨k, v⟩ := x
  have ht : ∀ y, Takes (k, v) → y ∈ as ++ [(k, v)] → Takes y := by
    intro y hT hy
    rcases List.mem_append.mp hy with hy | hy
    · exact h.takes y hy
    · rw [List.mem_singleton.mp hy]; exact hT
  simp only [Args.put] at hx
  by_cases hp : k = poolKey
  · subst hp
    rw [if_pos rfl] at hx
    cases v with
    | str s =>
      cases hx
      refine ⟨fun y hy => ht y (.inl ⟨.inl rfl, s, rfl⟩) hy, fun v => ?_, fun e => ?_, fun e => ?_⟩
      · rw [IsLast.snoc_other n1.symm]; exact h.name v
      · rw [IsLast.snoc_same]
        show some s = some e ↔ _
        simp [eq_comm]
      · rw [IsLast.snoc_other n3]; exact h.bytes e
    | lit s => cases hx
    | none => cases hx
  · rw [if_neg hp] at hx
    by_cases hb : k = bytesKey
    · subst hb
      rw [if_pos rfl] at hx
      cases v with
      | str s =>
        cases hx
        refine ⟨fun y hy => ht y (.inl ⟨.inr rfl, s, rfl⟩) hy, fun v => ?_, fun e => ?_, fun e => ?_⟩
        · rw [IsLast.snoc_other n2.symm]; exact h.name v
        · rw [IsLast.snoc_other n3.symm]; exact h.pool e
        · rw [IsLast.snoc_same]
          show some s = some e ↔ _
          simp [eq_comm]
      | lit s => cases hx
      | none => cases hx
    · rw [if_neg hb] at hx
      by_cases hn : k = nameKey
      · subst hn
        rw [if_pos rfl] at hx
        have hv : v ≠ .none ∧ a' = { a with name := some v } := by
          cases v with
          | none => cases hx
          | str s => cases hx; exact ⟨nofun, rfl⟩
          | lit s => cases hx; exact ⟨nofun, rfl⟩
        obtain ⟨hv, rfl⟩ := hv
        refine ⟨fun y hy => ht y (.inr ⟨rfl, hv⟩) hy, fun w => ?_, fun e => ?_, fun e => ?_⟩
        · rw [IsLast.snoc_same]
          show some v = some w ↔ _
          simp [eq_comm]
        · rw [IsLast.snoc_other n1]; exact h.pool e
        · rw [IsLast.snoc_other n2]; exact h.bytes e
      · rw [if_neg hn] at hx
        cases hx

theorem put_ok {a : Args} {x : Name × Val} (h : Takes x) : ∃ a', a.put x = .ok a' := by
  obtain ⟨n1, n2, n3⟩ := keys_ne
  obtain ⟨k, v⟩ := x
  simp only [Args.put]
  rcases h with ⟨h | h, s, hs⟩ | ⟨h, hv⟩
  · cases h; cases hs; rw [if_pos rfl]; exact ⟨_, rfl⟩
  · cases h; cases hs; rw [if_neg n3.symm, if_pos rfl]; exact ⟨_, rfl⟩
  · cases h
    rw [if_neg n1, if_neg n2, if_pos rfl]
    cases v with
    | none => exact absurd rfl hv
    | str s => exact ⟨_, rfl⟩
    | lit s => exact ⟨_, rfl⟩

theorem ArgsRead.putAll {l : List (Name × Val)} {as : List (Name × Val)} {a a' : Args} (h : ArgsRead as a)
    (hx : a.putAll l = .ok a') : ArgsRead (as ++ l) a' := by
  induction l generalizing as a with
  | nil => cases hx; rw [List.append_nil]; exact h
  | cons x l ih =>
    simp only [Args.putAll] at hx
    split at hx
    · next a1 h1 =>
      have := ih (h.put h1) hx
      rw [List.append_assoc] at this
      exact this
    · cases hx

theorem putAll_ok {l : List (Name × Val)} {a : Args} (h : ∀ x ∈ l, Takes x) : ∃ a', a.putAll l = .ok a' := by
  induction l generalizing a with
  | nil => exact ⟨a, rfl⟩
  | cons x l ih =>
    obtain ⟨a1, h1⟩ := put_ok (a := a) (h x (by simp))
    simp only [Args.putAll, h1]
    exact ih (fun y hy => h y (by simp [hy]))

theorem ArgsRead.start : ArgsRead [] {} where
  takes := nofun
  name _ := ⟨nofun, fun h => (IsLast.nil h).elim⟩
  pool _ := ⟨nofun, fun h => (IsLast.nil h).elim⟩
  bytes _ := ⟨nofun, fun h => (IsLast.nil h).elim⟩

/-- **C87**, the macro: for a struct it makes an `impl` exactly when every argument of its `prost_reflect`
attributes is one of the three with a fitting value, a name is given and an expression for the pool or for
the bytes. The last value given counts; a pool goes before bytes. -/
theorem C87_macro (isExpr : Name → Bool) (l : List Attr) (r : Option Impl) :
    expand isExpr .struct l = .ok r ↔
    ∃ i, r = some i ∧ (∀ x ∈ (mine l).flatten, Takes x) ∧ IsLast (mine l).flatten nameKey i.name ∧
      ((∃ e, IsLast (mine l).flatten poolKey (.str e) ∧ isExpr e = true ∧ i.source = .pool e) ∨
       ((∀ x ∈ (mine l).flatten, x.1 ≠ poolKey) ∧
        ∃ e, IsLast (mine l).flatten bytesKey (.str e) ∧ isExpr e = true ∧ i.source = .bytes e)) := by
  have nopool : ∀ {as : List (Name × Val)}, (∀ x ∈ as, Takes x) → (∀ e, ¬ IsLast as poolKey (.str e)) →
      ∀ x ∈ as, x.1 ≠ poolKey := by
    intro as
    generalize hlen : as.length = n
    induction n generalizing as with
    | zero => intro _ _ x hx; rw [List.length_eq_zero_iff.mp hlen] at hx; cases hx
    | succ n ih =>
      intro ht hn x hx
      rcases List.eq_nil_or_concat as with rfl | ⟨as, y, rfl⟩
      · cases hx
      rw [List.concat_eq_append] at ht hn hx hlen
      have hlen' : as.length = n := by simpa using hlen
      obtain ⟨k, v⟩ := y
      by_cases hk : k = poolKey
      · subst hk
        rcases ht (poolKey, v) (by simp) with ⟨_, s, hs⟩ | ⟨h, _⟩
        · cases hs
          exact absurd (IsLast.snoc_same.mpr rfl) (hn s)
        · exact absurd h.symm keys_ne.1
      · rcases List.mem_append.mp hx with hx | hx
        · exact ih hlen' (fun z hz => ht z (by simp [hz])) (fun e he => hn e ((IsLast.snoc_other hk).mpr he)) x hx
        · rw [List.mem_singleton.mp hx]; exact hk
  have haslast : ∀ {as : List (Name × Val)} {k : Name} {v : Val}, IsLast as k v → as ≠ [] := by
    rintro as k v h rfl
    exact IsLast.nil h
  constructor
  · intro h
    simp only [expand, Args.parse] at h
    split at h
    · cases h
    · next a ha =>
      split at ha
      · cases ha
      · have hR := ArgsRead.start.putAll ha
        rw [List.nil_append] at hR
        simp only [Args.source] at h
        cases hp : a.pool with
        | some e =>
          rw [hp] at h
          simp only at h
          by_cases he : isExpr e = true
          · rw [if_pos he] at h
            simp only at h
            cases hn : a.name with
            | none => rw [hn] at h; cases h
            | some n =>
              rw [hn] at h
              cases h
              exact ⟨_, rfl, hR.takes, (hR.name n).mp hn, .inl ⟨e, (hR.pool e).mp hp, he, rfl⟩⟩
          · rw [if_neg he] at h; cases h
        | none =>
          rw [hp] at h
          simp only at h
          cases hb : a.bytes with
          | none => rw [hb] at h; cases h
          | some e =>
            rw [hb] at h
            simp only at h
            by_cases he : isExpr e = true
            · rw [if_pos he] at h
              simp only at h
              cases hn : a.name with
              | none => rw [hn] at h; cases h
              | some n =>
                rw [hn] at h
                cases h
                refine ⟨_, rfl, hR.takes, (hR.name n).mp hn, .inr ⟨nopool hR.takes fun e' he' => ?_, e, (hR.bytes e).mp hb, he, rfl⟩⟩
                rw [← hR.pool, hp] at he'
                cases he'
            · rw [if_neg he] at h; cases h
  · rintro ⟨⟨src, n⟩, rfl, ht, hn, hs⟩
    have hne : mine l ≠ [] := by
      intro e
      rw [e] at hn
      exact IsLast.nil hn
    obtain ⟨a, ha⟩ := putAll_ok (a := {}) ht
    have hR := ArgsRead.start.putAll ha
    rw [List.nil_append] at hR
    simp only [expand, Args.parse, if_neg hne, ha]
    have hn' := (hR.name _).mpr hn
    rcases hs with ⟨e, h1, h2, h3⟩ | ⟨h0, e, h1, h2, h3⟩
    · cases h3
      simp only [Args.source, (hR.pool e).mpr h1, if_pos h2, hn']
    · cases h3
      have hp : a.pool = none := by
        cases hp : a.pool with
        | none => rfl
        | some e' =>
          obtain ⟨x, y, e1, _⟩ := (hR.pool e').mp hp
          exact absurd rfl (h0 (poolKey, .str e') (by rw [e1]; simp))
      simp only [Args.source, hp, (hR.bytes e).mpr h1, if_pos h2, hn']

/-! ### Texts -/

/-- A text that is the same inside a string literal. -/
def Plain (s : Name) : Prop := ∀ c ∈ s, c ≠ '"' ∧ c ≠ '\\' ∧ c ≠ '\r'

instance (s : Name) : Decidable (Plain s) := by unfold Plain; infer_instance

theorem readLit_plain (r : Name) : ∀ {s : Name}, Plain s → readLit (s ++ '"' :: r) = some (s, r)
  | [], _ => by rw [List.nil_append, readLit]
  | c :: s, h => by
    obtain ⟨h1, h2, h3⟩ := h c (by simp)
    have ih := readLit_plain r (s := s) (fun d hd => h d (by simp [hd]))
    rw [List.cons_append]
    rw [readLit]
    · rw [ih]; rfl
    · exact h1
    · intro d r' e _; exact h2 e
    · intro e _; exact h2 e
    · exact h3

theorem after_append (b s : Name) : after b (b ++ s) = some s := by
  induction b with
  | nil => cases s <;> rfl
  | cons c b ih => rw [List.cons_append, after, if_pos rfl]; exact ih

theorem after_close : (deriveText.take 3 ≠ attrOpen.take 3) ∧ 3 ≤ attrOpen.length ∧ ∃ r, argOpen = ' ' :: r := by
  have h : argOpen = ' ' :: "= \"".toList := by unfold argOpen; decide +kernel
  exact ⟨by decide +kernel, by decide +kernel, _, h⟩

theorem readAttr_arg {key v : Name} (hk : ∀ c ∈ key, (c.isAlpha || c = '_') = true) (hv : Plain v) :
    readAttr (argText key v) = some (.args attrName [(key, .str v)]) := by
  obtain ⟨d1, d2, r, d3⟩ := after_close
  have hne : argText key v ≠ deriveText := by
    intro e
    refine d1 ?_
    rw [← e, argText, List.take_append_of_le_length d2]
  unfold readAttr
  rw [if_neg hne, argText, after_append]
  simp only
  have h2 : (key ++ (argOpen ++ (v ++ '"' :: attrClose))).takeWhile (fun c => c.isAlpha || c = '_') = key := by
    rw [List.takeWhile_append_of_pos hk, d3, List.cons_append, List.takeWhile_cons, if_neg (by decide)]
    exact List.append_nil _
  rw [h2, List.drop_left, after_append]
  simp only
  rw [readLit_plain _ hv]
  simp

theorem readAttrs_append {a b : List Name} {x y : List Attr} (ha : readAttrs a = some x) (hb : readAttrs b = some y) :
    readAttrs (a ++ b) = some (x ++ y) := by
  induction a generalizing x with
  | nil => cases ha; exact hb
  | cons t a ih =>
    simp only [readAttrs] at ha
    split at ha
    · next u w h1 h2 =>
      cases ha
      simp only [List.cons_append, readAttrs, h1, ih h2]
    · cases ha

/-! ### Paths -/

theorem suffixes_iff (n fq : Name) : n ∈ suffixes fq ↔ ('.' :: n) <:+ fq := by
  induction fq with
  | nil => simp [suffixes]
  | cons c l ih =>
    rw [suffixes, List.suffix_cons_iff]
    split
    · next h =>
      subst h
      rw [List.mem_cons, ih]
      constructor
      · rintro (rfl | h)
        · exact .inl rfl
        · exact .inr h
      · rintro (h | h)
        · cases h; exact .inl rfl
        · exact .inr h
    · next h =>
      rw [ih]
      constructor
      · exact .inr
      · rintro (e | e)
        · cases e; exact absurd rfl h
        · exact e

theorem matches_iff {path : Name} (h : path.head? ≠ some '.') (fq : Name) :
    pathMatches path fq = true ↔ ('.' :: path) <:+ fq := by
  unfold pathMatches
  have h1 : path ≠ ['.'] := by rintro rfl; exact h rfl
  rw [← suffixes_iff]
  simp [h1, h]

/-- The texts for one message. -/
def three (t n : Name) : List Name := [deriveText, argText nameKey n, t]

theorem texts_append (a b : Config) (fq : Name) : Config.texts (a ++ b) fq = Config.texts a fq ++ Config.texts b fq := by
  simp [Config.texts]

theorem texts_attrs {t n : Name} (h : n.head? ≠ some '.') (fq : Name) :
    Config.texts (attrsFor t n) fq = if ('.' :: n) <:+ fq then three t n else [] := by
  unfold Config.texts attrsFor
  by_cases hm : ('.' :: n) <:+ fq
  · have := (matches_iff h fq).mpr hm
    simp [this, if_pos hm, three]
  · have : pathMatches n fq = false := by
      cases hb : pathMatches n fq with
      | false => rfl
      | true => exact absurd ((matches_iff h fq).mp hb) hm
    simp [this, if_neg hm]

theorem texts_all {t : Name} {ms : List MsgD} (h : ∀ m ∈ ms, m.id.fullName.head? ≠ some '.') (fq : Name) :
    Config.texts (ms.map fun m => attrsFor t m.id.fullName).flatten fq =
      ((ms.filter fun m => ('.' :: m.id.fullName) <:+ fq).map fun m => three t m.id.fullName).flatten := by
  induction ms with
  | nil => rfl
  | cons m ms ih =>
    rw [List.map_cons, List.flatten_cons, texts_append, ih (fun x hx => h x (by simp [hx])), texts_attrs (h m (by simp)),
      List.filter_cons]
    by_cases hm : ('.' :: m.id.fullName) <:+ fq
    · simp [hm]
    · simp [hm]

/-- **C87**, which attributes: the type with fully-qualified name `fq` gets the three attributes of every
message whose full name `fq` ends with, at a dot, in the order of the messages, after those it had. -/
theorem C87_texts {b : Builder} {c c' : Config} {p : Pool} {t : Name} (ht : b.poolText = some t)
    (hc : b.configure c p = some c') (hdot : ∀ m ∈ p.messages, m.id.fullName.head? ≠ some '.') (fq : Name) :
    c'.texts fq = c.texts fq ++
      ((p.messages.filter fun m => ('.' :: m.id.fullName) <:+ fq).map fun m => three t m.id.fullName).flatten := by
  unfold Builder.configure at hc
  rw [ht] at hc
  cases hc
  rw [texts_append, texts_all hdot]

/-- What `three` is read as. -/
def threeAttrs (key e n : Name) : List Attr :=
  [.derive, .args attrName [(nameKey, .str n)], .args attrName [(key, .str e)]]

theorem read_three {key e n : Name} (hk : key = poolKey ∨ key = bytesKey) (he : Plain e) (hn : Plain n) :
    readAttrs (three (argText key e) n) = some (threeAttrs key e n) := by
  have h1 : readAttr deriveText = some .derive := if_pos rfl
  have hkey : ∀ c ∈ key, (c.isAlpha || c = '_') = true := by
    rcases hk with rfl | rfl
    · decide +kernel
    · decide +kernel
  simp only [three, readAttrs, h1, readAttr_arg (key := nameKey) (by decide +kernel) hn, readAttr_arg hkey he, threeAttrs]

theorem read_threes {key e : Name} (hk : key = poolKey ∨ key = bytesKey) (he : Plain e) {ms : List MsgD}
    (hn : ∀ m ∈ ms, Plain m.id.fullName) :
    readAttrs (ms.map fun m => three (argText key e) m.id.fullName).flatten =
      some (ms.map fun m => threeAttrs key e m.id.fullName).flatten := by
  induction ms with
  | nil => rfl
  | cons m ms ih =>
    exact readAttrs_append (read_three hk he (hn m (by simp))) (ih fun x hx => hn x (by simp [hx]))

theorem count_threes (key e : Name) (ms : List MsgD) :
    ((ms.map fun m => threeAttrs key e m.id.fullName).flatten.filter (· = .derive)).length = ms.length := by
  induction ms with
  | nil => rfl
  | cons m ms ih =>
    rw [List.map_cons, List.flatten_cons, List.filter_append, List.length_append, ih, List.length_cons]
    show 1 + ms.length = _
    omega

/-- The key and the expression of the builder. -/
def Uses (b : Builder) (key e : Name) : Prop :=
  (key = poolKey ∧ b.pool = some e) ∨ (key = bytesKey ∧ b.pool = none ∧ b.bytes = some e)

theorem Uses.text {b : Builder} {key e : Name} (h : Uses b key e) : b.poolText = some (argText key e) := by
  unfold Builder.poolText
  rcases h with ⟨rfl, h⟩ | ⟨rfl, h, h'⟩
  · rw [h]
  · rw [h, h']

theorem Uses.key {b : Builder} {key e : Name} (h : Uses b key e) : key = poolKey ∨ key = bytesKey := by
  rcases h with ⟨rfl, _⟩ | ⟨rfl, _⟩
  · exact .inl rfl
  · exact .inr rfl

/-- Where `descriptor()` is to look. -/
def sourceOf (key e : Name) : Source := if key = poolKey then .pool e else .bytes e

theorem expand_three {isExpr : Name → Bool} {key e n : Name} (hk : key = poolKey ∨ key = bytesKey) (he : isExpr e = true) :
    expand isExpr .struct (threeAttrs key e n) = .ok (some ⟨sourceOf key e, .str n⟩) := by
  have hm : mine (threeAttrs key e n) = [[(nameKey, .str n)], [(key, .str e)]] := by
    simp [mine, threeAttrs]
  obtain ⟨n1, n2, n3⟩ := keys_ne
  rw [C87_macro]
  rw [hm]
  refine ⟨_, rfl, ?_, ?_, ?_⟩
  · intro x hx
    simp only [List.flatten_cons, List.flatten_nil, List.append_nil, List.cons_append, List.nil_append, List.mem_cons,
      List.not_mem_nil, or_false] at hx
    rcases hx with rfl | rfl
    · exact .inr ⟨rfl, nofun⟩
    · exact .inl ⟨hk, e, rfl⟩
  · refine ⟨[], [(key, .str e)], rfl, fun x hx => ?_⟩
    rw [List.mem_singleton.mp hx]
    rcases hk with rfl | rfl
    · exact n1.symm
    · exact n2.symm
  · rcases hk with rfl | rfl
    · exact .inl ⟨e, ⟨[(nameKey, .str n)], [], rfl, nofun⟩, he, by rw [sourceOf, if_pos rfl]⟩
    · refine .inr ⟨fun x hx => ?_, e, ⟨[(nameKey, .str n)], [], rfl, nofun⟩, he, by rw [sourceOf, if_neg n3.symm]⟩
      simp only [List.flatten_cons, List.flatten_nil, List.append_nil, List.cons_append, List.nil_append, List.mem_cons,
        List.not_mem_nil, or_false] at hx
      rcases hx with rfl | rfl
      · exact n1
      · exact n3.symm

section
variable {env : Env} (hsr : SearchOk env.search) {acc : List FileP} {p : Pool} {b : Builder} {c : Config} {isExpr : Name → Bool}
  {key e : Name}
include hsr

omit hsr in
/-- The messages whose attributes go to message `i`, if there is no other one. -/
theorem only_one {i : Nat} {d : MsgD}
    (hi : p.messages[i]? = some d)
    (hno : ∀ (j : Nat) d', p.messages[j]? = some d' → j ≠ i → ¬ ('.' :: d'.id.fullName) <:+ ('.' :: d.id.fullName)) :
    (p.messages.filter fun m => ('.' :: m.id.fullName) <:+ ('.' :: d.id.fullName)) = [d] := by
  obtain ⟨hlt, hd⟩ := List.getElem?_eq_some_iff.mp hi
  have hsplit : p.messages = p.messages.take i ++ d :: p.messages.drop (i + 1) := by
    rw [← hd, List.getElem_cons_drop, List.take_append_drop]
  rw [hsplit, List.filter_append, List.filter_cons, if_pos (by simp)]
  have h1 : (p.messages.take i).filter (fun m => ('.' :: m.id.fullName) <:+ ('.' :: d.id.fullName)) = [] := by
    rw [List.filter_eq_nil_iff]
    intro m hm
    obtain ⟨j, hj⟩ := List.getElem?_of_mem hm
    rw [List.getElem?_take] at hj
    split at hj
    · next hlt => simpa using hno j m hj (by omega)
    · cases hj
  have h2 : (p.messages.drop (i + 1)).filter (fun m => ('.' :: m.id.fullName) <:+ ('.' :: d.id.fullName)) = [] := by
    rw [List.filter_eq_nil_iff]
    intro m hm
    obtain ⟨j, hj⟩ := List.getElem?_of_mem hm
    rw [List.getElem?_drop] at hj
    simpa using hno (i + 1 + j) m hj (by omega)
  rw [h1, h2]
  rfl

/-- **C87.** The type generated for a message gets one `impl` of `ReflectMessage`, which looks where the
builder was told and for the message's own full name, under which the pool has it; provided that no other
message of the pool has a full name with which this one ends, at a dot. -/
theorem C87_type_partial (h : Hist env acc p) (hdot : ∀ m ∈ p.messages, m.id.fullName.head? ≠ some '.')
    (hplain : ∀ m ∈ p.messages, Plain m.id.fullName) (hb : Uses b key e) (he : Plain e) (hx : isExpr e = true)
    {c : Config} (hc : b.configure [] p = some c) {i : Nat} {d : MsgD} (hi : p.messages[i]? = some d)
    (hno : ∀ (j : Nat) d', p.messages[j]? = some d' → j ≠ i → ¬ ('.' :: d'.id.fullName) <:+ ('.' :: d.id.fullName)) :
    compile isExpr .struct (c.texts ('.' :: d.id.fullName)) = some (some ⟨sourceOf key e, .str d.id.fullName⟩) ∧
      p.messageByName d.id.fullName = some i := by
  have hd := List.mem_of_getElem? hi
  refine ⟨?_, (C18_message hsr h _ _).mpr ⟨d, hi, (stripDot_of_ne (hdot d hd)).symm⟩⟩
  rw [C87_texts hb.text hc hdot, only_one hi hno]
  have hr := read_threes hb.key he (ms := [d]) (fun m hm => hplain m (by rw [List.mem_singleton.mp hm]; exact hd))
  have e0 : Config.texts [] ('.' :: d.id.fullName) = [] := rfl
  rw [e0, List.nil_append]
  unfold compile
  rw [hr]
  simp only
  rw [count_threes]
  simp only [List.map_cons, List.map_nil, List.flatten_cons, List.flatten_nil, List.append_nil, List.length_cons,
    List.length_nil, Nat.zero_add]
  rw [expand_three hb.key hx]

omit hsr in
/-- **C87**, the condition is needed: if there is another such message, the type does not compile. -/
theorem C87_needed (hdot : ∀ m ∈ p.messages, m.id.fullName.head? ≠ some '.')
    (hplain : ∀ m ∈ p.messages, Plain m.id.fullName) (hb : Uses b key e) (he : Plain e)
    {c : Config} (hc : b.configure [] p = some c) {i j : Nat} {d d' : MsgD} (hi : p.messages[i]? = some d)
    (hj : p.messages[j]? = some d') (hij : j ≠ i) (hs : ('.' :: d'.id.fullName) <:+ ('.' :: d.id.fullName)) :
    compile isExpr .struct (c.texts ('.' :: d.id.fullName)) = none := by
  rw [C87_texts hb.text hc hdot]
  have e0 : Config.texts [] ('.' :: d.id.fullName) = [] := rfl
  rw [e0, List.nil_append]
  unfold compile
  rw [read_threes hb.key he (fun m hm => hplain m (List.mem_filter.mp hm).1)]
  simp only
  rw [count_threes]
  have two : ∀ {i j : Nat} {d d' : MsgD} {ms : List MsgD} (f : MsgD → Bool), i < j → ms[i]? = some d → ms[j]? = some d' → f d = true → f d' = true →
      2 ≤ (ms.filter f).length := by
    intro i j d d' ms f hlt hi hj h1 h2
    obtain ⟨hl, hd⟩ := List.getElem?_eq_some_iff.mp hi
    have hsplit : ms = ms.take i ++ d :: ms.drop (i + 1) := by
      rw [← hd, List.getElem_cons_drop, List.take_append_drop]
    have hmem : d' ∈ (ms.drop (i + 1)).filter f := by
      refine List.mem_filter.mpr ⟨List.mem_of_getElem? (i := j - (i + 1)) ?_, h2⟩
      rw [List.getElem?_drop]
      rw [show i + 1 + (j - (i + 1)) = j by omega]
      exact hj
    have := List.length_pos_of_mem hmem
    rw [hsplit, List.filter_append, List.filter_cons, if_pos h1, List.length_append, List.length_cons]
    omega
  have h2 : 2 ≤ (p.messages.filter fun m => ('.' :: m.id.fullName) <:+ ('.' :: d.id.fullName)).length := by
    rcases Nat.lt_or_gt_of_ne hij with hlt | hlt
    · exact two _ hlt hj hi (by simpa using hs) (by simp)
    · exact two _ hlt hi hj (by simp) (by simpa using hs)
  split
  · next e => omega
  · next e => omega
  · rfl

omit hsr in
/-- **C87**, enums and oneofs: whatever attributes such a type gets, they compile and make no `impl`. -/
theorem C87_enum (hdot : ∀ m ∈ p.messages, m.id.fullName.head? ≠ some '.')
    (hplain : ∀ m ∈ p.messages, Plain m.id.fullName) (hb : Uses b key e) (he : Plain e)
    {c : Config} (hc : b.configure [] p = some c) (fq : Name) :
    compile isExpr .enum (c.texts fq) = some none := by
  rw [C87_texts hb.text hc hdot]
  have e0 : Config.texts [] fq = [] := rfl
  rw [e0, List.nil_append]
  unfold compile
  rw [read_threes hb.key he (fun m hm => hplain m (List.mem_filter.mp hm).1)]
  simp only
  split <;> rfl

end

/-! ### Other attributes; quotation marks -/

theorem mine_append (a b : List Attr) : mine (a ++ b) = mine a ++ mine b := by
  induction a with
  | nil => rfl
  | cons x a ih =>
    cases x with
    | derive => simp only [List.cons_append, mine, ih]
    | args q as =>
      simp only [List.cons_append, mine, ih]
      split <;> rfl

/-- **C87**, attributes of others: what is under another name than `prost_reflect` does not matter to the macro,
wherever it stands and whatever its arguments. -/
theorem C87_others (isExpr : Name → Bool) (d : Data) (a b : List Attr) {n : Name} (hn : n ≠ "prost_reflect".toList)
    (as : List (Name × Val)) : expand isExpr d (a ++ .args n as :: b) = expand isExpr d (a ++ b) ∧
    expand isExpr d (a ++ .derive :: b) = expand isExpr d (a ++ b) := by
  have hn' : n ≠ attrName := by unfold attrName; exact hn
  have h1 : mine (a ++ .args n as :: b) = mine (a ++ b) := by
    rw [mine_append, mine_append, mine, if_neg hn']
  have h2 : mine (a ++ .derive :: b) = mine (a ++ b) := by
    rw [mine_append, mine_append, mine]
  constructor <;> simp only [expand, Args.parse, h1, h2]

/-- The text with a backslash before each quotation mark and each backslash. -/
def escaped (s : Name) : Name := s.flatMap fun c => if c = '"' ∨ c = '\\' then ['\\', c] else [c]

theorem readLit_escaped (r : Name) : ∀ {s : Name}, '\r' ∉ s → readLit (escaped s ++ '"' :: r) = some (s, r)
  | [], _ => by rw [escaped, List.flatMap_nil, List.nil_append, readLit]
  | c :: s, h => by
    have ih := readLit_escaped r (s := s) (fun hd => h (by simp [hd]))
    have e : escaped (c :: s) = (if c = '"' ∨ c = '\\' then ['\\', c] else [c]) ++ escaped s := by
      rw [escaped, List.flatMap_cons, escaped]
    rw [e]
    split
    · next hc =>
      simp only [List.cons_append, List.nil_append, readLit, ih]
      rcases hc with rfl | rfl <;> rfl
    · next hc =>
      simp only [not_or] at hc
      rw [List.cons_append, List.nil_append, List.cons_append, readLit]
      · rw [ih]; rfl
      · exact hc.1
      · intro d r' e _; exact hc.2 e
      · intro e _; exact hc.2 e
      · intro e; exact h (by simp [e])

/-- **C87**, expressions with quotation marks: given to the builder with a backslash before each quotation mark
and each backslash, an expression arrives at the macro as it is. -/
theorem C87_escaped {key v : Name} (hk : ∀ c ∈ key, (c.isAlpha || c = '_') = true) (hv : '\r' ∉ v) :
    readAttr (argText key (escaped v)) = some (.args attrName [(key, .str v)]) := by
  obtain ⟨d1, d2, r, d3⟩ := after_close
  have hne : argText key (escaped v) ≠ deriveText := by
    intro e
    refine d1 ?_
    rw [← e, argText, List.take_append_of_le_length d2]
  unfold readAttr
  rw [if_neg hne, argText, after_append]
  simp only
  have h2 : (key ++ (argOpen ++ (escaped v ++ '"' :: attrClose))).takeWhile (fun c => c.isAlpha || c = '_') = key := by
    rw [List.takeWhile_append_of_pos hk, d3, List.cons_append, List.takeWhile_cons, if_neg (by decide)]
    exact List.append_nil _
  rw [h2, List.drop_left, after_append]
  simp only
  rw [readLit_escaped _ hv]
  simp

/-! ### The hypotheses can be met, and cannot be left out -/

theorem readAttrs_none {t : Name} {l : List Name} (ht : readAttr t = none) (hm : t ∈ l) : readAttrs l = none := by
  induction l with
  | nil => cases hm
  | cons u l ih =>
    simp only [readAttrs]
    rcases List.mem_cons.mp hm with rfl | hm
    · rw [ht]
    · rw [ih hm]
      cases readAttr u <;> rfl

/-- An expression that one may well give for the bytes. -/
def included : Name := nm "include_bytes!(\"set.bin\")"

/-- **C87 is false for expressions with a quotation mark.** The builder puts the expression between quotation
marks as it is, so that no generated type can be compiled. -/
theorem C87_quote_false {p : Pool} {c : Config} (hc : Builder.configure { bytes := some included } [] p = some c)
    (hdot : ∀ m ∈ p.messages, m.id.fullName.head? ≠ some '.') {d : MsgD} (hd : d ∈ p.messages) (isExpr : Name → Bool) :
    compile isExpr .struct (c.texts ('.' :: d.id.fullName)) = none := by
  have hr : readAttr (argText bytesKey included) = none := by decide +kernel
  rw [C87_texts (t := argText bytesKey included) rfl hc hdot]
  unfold compile
  rw [readAttrs_none hr]
  refine List.mem_append_right _ (List.mem_flatten.mpr ⟨three (argText bytesKey included) d.id.fullName, ?_, by simp [three]⟩)
  exact List.mem_map.mpr ⟨d, List.mem_filter.mpr ⟨hd, by simp⟩, rfl⟩

/-- C87_escaped: the same expression. -/
example : (∀ c ∈ bytesKey, (c.isAlpha || c = '_') = true) ∧ '\r' ∉ included ∧ escaped included ≠ included := by
  decide +kernel

/-- Two packages, of which one ends with the other. -/
def inner : FileP := { name := nm "i.proto", package := nm "v1", messages := [{ name := nm "M" }, { name := nm "K" }] }
def outer : FileP := { name := nm "o.proto", package := nm "api.v1", messages := [{ name := nm "M" }] }

theorem packages_ex : ∃ acc p, Hist env0 acc p ∧ p.messages.map (fun m => m.id.fullName) = [nm "v1.M", nm "v1.K", nm "api.v1.M"] := by
  have hc : (match buildFiles env0 Pool.empty [inner, outer] with
    | .ok ⟨p, []⟩ => decide (p.messages.map (fun m => m.id.fullName) = [nm "v1.M", nm "v1.K", nm "api.v1.M"])
    | _ => false) = true := by decide +kernel
  split at hc
  · next p h => exact ⟨_, p, .accept _ _ _ _ .empty h, of_decide_eq_true hc⟩
  · cases hc

theorem names_at {p : Pool} {l : List Name} (h : p.messages.map (fun m => m.id.fullName) = l) {i : Nat} {n : Name} :
    l[i]? = some n ↔ ∃ d, p.messages[i]? = some d ∧ d.id.fullName = n := by
  rw [← h, List.getElem?_map, Option.map_eq_some_iff]

theorem names_plain {p : Pool} {l : List Name} (h : p.messages.map (fun m => m.id.fullName) = l)
    (hl : ∀ n ∈ l, n.head? ≠ some '.' ∧ ∀ c ∈ n, c ≠ '"' ∧ c ≠ '\\' ∧ c ≠ '\r') :
    (∀ m ∈ p.messages, m.id.fullName.head? ≠ some '.') ∧ ∀ m ∈ p.messages, Plain m.id.fullName := by
  have : ∀ m ∈ p.messages, m.id.fullName ∈ l := fun m hm => by rw [← h]; exact List.mem_map.mpr ⟨m, hm, rfl⟩
  exact ⟨fun m hm => (hl _ (this m hm)).1, fun m hm => (hl _ (this m hm)).2⟩

/-- C87_type_partial: the message `v1.K`, and also `v1.M`. -/
example : ∃ acc p c i d, Hist env0 acc p ∧ (∀ m ∈ p.messages, m.id.fullName.head? ≠ some '.') ∧
    (∀ m ∈ p.messages, Plain m.id.fullName) ∧ Uses { pool := some (nm "crate::POOL") } poolKey (nm "crate::POOL") ∧
    Plain (nm "crate::POOL") ∧ Builder.configure { pool := some (nm "crate::POOL") } [] p = some c ∧
    p.messages[i]? = some d ∧ 1 < p.messages.length ∧
    ∀ (j : Nat) d', p.messages[j]? = some d' → j ≠ i → ¬ ('.' :: d'.id.fullName) <:+ ('.' :: d.id.fullName) := by
  obtain ⟨acc, p, h, hn⟩ := packages_ex
  obtain ⟨h1, h2⟩ := names_plain hn (by decide +kernel)
  obtain ⟨d, hd, hdn⟩ := (names_at hn (i := 1)).mp rfl
  refine ⟨acc, p, _, 1, d, h, h1, h2, .inl ⟨rfl, rfl⟩, by decide +kernel, rfl, hd, ?_, fun j d' hj hne => ?_⟩
  · have := congrArg List.length hn
    rw [List.length_map] at this
    rw [this]; decide
  · have hj' := (names_at hn).mpr ⟨d', hj, rfl⟩
    rw [hdn]
    have hlt := (List.getElem?_eq_some_iff.mp hj').1
    generalize d'.id.fullName = n at hj'
    match j, hlt, hne, hj' with
    | 0, _, _, hj' => cases hj'; decide +kernel
    | 1, _, hne, _ => exact absurd rfl hne
    | 2, _, _, hj' => cases hj'; decide +kernel
    | j + 3, hlt, _, _ => simp at hlt; omega

/-- **C87 is false when the full name of one message ends with that of another one.** The type generated for
`api.v1.M` gets the attributes of `v1.M` as well and is refused by the compiler, whatever else is given. -/
theorem C87_false : ∃ acc p c, ∃ i : Nat, ∃ d : MsgD, Hist env0 acc p ∧ (∀ m ∈ p.messages, m.id.fullName.head? ≠ some '.') ∧
    (∀ m ∈ p.messages, Plain m.id.fullName) ∧ Builder.configure { pool := some (nm "crate::POOL") } [] p = some c ∧
    p.messages[i]? = some d ∧ d.id.fullName = nm "api.v1.M" ∧
    ∀ isExpr, compile isExpr .struct (c.texts ('.' :: d.id.fullName)) = none := by
  obtain ⟨acc, p, h, hn⟩ := packages_ex
  obtain ⟨h1, h2⟩ := names_plain hn (by decide +kernel)
  obtain ⟨d, hd, hdn⟩ := (names_at hn (i := 2)).mp rfl
  obtain ⟨d', hd', hdn'⟩ := (names_at hn (i := 0)).mp rfl
  exact ⟨acc, p, _, 2, d, h, h1, h2, rfl, hd, hdn, fun isExpr => C87_needed (b := { pool := some (nm "crate::POOL") }) (key := poolKey) (e := nm "crate::POOL") h1 h2
    (.inl ⟨rfl, rfl⟩) (by decide +kernel) rfl hd hd' (by decide) (by rw [hdn, hdn']; decide +kernel)⟩

/-- C87_macro: two attributes, the name given twice. -/
example : (match expand (fun _ => true) .struct [.derive, .args attrName [(nameKey, .str (nm "a.M")), (poolKey, .str (nm "P"))],
    .args attrName [(nameKey, .str (nm "a.N"))]] with
    | .ok r => decide (r = some ⟨.pool (nm "P"), .str (nm "a.N")⟩)
    | .error _ => false) = true := by decide +kernel

end Verif.Props
