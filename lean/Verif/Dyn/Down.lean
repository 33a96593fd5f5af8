import Verif.Dyn.Evolve
import Verif.Dyn.Jumble
/-!
The message an old program holds for a message of a later version, as a relation.
-/
set_option autoImplicit false
namespace Verif.Dyn
open Verif.Wire

mutual
/-- `Down k0 v v0`: a field whose kind is `k0` in the old schema holds `v0` where the new one has `v`. -/
inductive Down (S0 S : Schema) : Kind → Value → Value → Prop
  | flat (k0 : Kind) (v : Value) (h : v.flat = true) : Down S0 S k0 v v
  | list {k0 : Kind} {a b : List Value} (h : DownL S0 S k0 a b) : Down S0 S k0 (.list a) (.list b)
  | map {i0 : Nat} {kd0 vd0 : FieldDesc} {a b : List (MapKey × Value)} (hk : S0.mapKV i0 = some (kd0, vd0))
      (h : DownM S0 S vd0.kind a b) : Down S0 S (.message i0) (.map a) (.map b)
  | msg {i0 d : Nat} {a b : List (Nat × Slot)} (h : DownS S0 S i0 d a b) :
      Down S0 S (.message i0) (.msg d a) (.msg i0 b)
inductive DownL (S0 S : Schema) : Kind → List Value → List Value → Prop
  | nil {k0 : Kind} : DownL S0 S k0 [] []
  | cons {k0 : Kind} {v v0 : Value} {a b : List Value} (h : Down S0 S k0 v v0) (t : DownL S0 S k0 a b) :
      DownL S0 S k0 (v :: a) (v0 :: b)
inductive DownM (S0 S : Schema) : Kind → List (MapKey × Value) → List (MapKey × Value) → Prop
  | nil {k0 : Kind} : DownM S0 S k0 [] []
  | cons {k0 : Kind} {k : MapKey} {v v0 : Value} {a b : List (MapKey × Value)} (h : Down S0 S k0 v v0)
      (t : DownM S0 S k0 a b) : DownM S0 S k0 ((k, v) :: a) ((k, v0) :: b)
/-- Slots: what is absent, or writes nothing, is gone; what the old program does not know has become
unknown fields. -/
inductive DownS (S0 S : Schema) : Nat → Nat → List (Nat × Slot) → List (Nat × Slot) → Prop
  | nil {d0 d : Nat} : DownS S0 S d0 d [] []
  | taken {d0 d n : Nat} {a b : List (Nat × Slot)} (t : DownS S0 S d0 d a b) : DownS S0 S d0 d ((n, .taken) :: a) b
  | absent {d0 d n : Nat} {v : Value} {f : FieldDesc} {a b : List (Nat × Slot)} (hk : Known S d f) (hn : f.number = n)
      (h : hasVal S f v ≠ some true) (t : DownS S0 S d0 d a b) : DownS S0 S d0 d ((n, .val v) :: a) b
  | unknown {d0 d n : Nat} {u : USet} {a b : List (Nat × Slot)} (t : DownS S0 S d0 d a b) :
      DownS S0 S d0 d ((n, .unknown u) :: a) ((n, .unknown u) :: b)
  | vanish {d0 d n : Nat} {v : Value} {f : FieldDesc} {a b : List (Nat × Slot)} (hk : Known S d f) (hn : f.number = n)
      (hp : hasVal S f v = some true) (h0 : ∀ f0, Known S0 d0 f0 → f0.number ≠ n) (he : encVal S f v = some [])
      (t : DownS S0 S d0 d a b) : DownS S0 S d0 d ((n, .val v) :: a) b
  | strange {d0 d n : Nat} {v : Value} {f : FieldDesc} {w : USet} {a b : List (Nat × Slot)} (hk : Known S d f)
      (hn : f.number = n) (hp : hasVal S f v = some true) (h0 : ∀ f0, Known S0 d0 f0 → f0.number ≠ n)
      (he : encVal S f v = some (encUSet w)) (hw : w ≠ [])
      (h : ∀ p ∈ w, p.1 = f.number ∧ p.2.Wf ∧ p.2.depth ≤ depthVal v)
      (t : DownS S0 S d0 d a b) : DownS S0 S d0 d ((n, .val v) :: a) ((n, .unknown w) :: b)
  | known {d0 d n : Nat} {v v0 : Value} {f f0 : FieldDesc} {a b : List (Nat × Slot)} (hk : Known S d f)
      (hn : f.number = n) (hp : hasVal S f v = some true) (hk0 : Known S0 d0 f0) (hn0 : f0.number = n)
      (h : Down S0 S f0.kind v v0)
      (t : DownS S0 S d0 d a b) : DownS S0 S d0 d ((n, .val v) :: a) ((n, .val v0) :: b)
end

section
variable {S0 S : Schema}

theorem Down.eq_flat {k0 : Kind} {v v0 : Value} (h : Down S0 S k0 v v0) (hv : v.flat = true) : v0 = v := by
  cases h with
  | flat => rfl
  | _ => cases hv

theorem DownL.eq_flat : ∀ {k0 : Kind} {a b : List Value}, DownL S0 S k0 a b → (∀ v ∈ a, v.flat = true) → b = a
  | _, _, _, .nil, _ => rfl
  | _, _, _, .cons h t, hv => by
    rw [h.eq_flat (hv _ List.mem_cons_self), t.eq_flat (fun v h => hv v (List.mem_cons_of_mem _ h))]

theorem DownM.perm {k0 : Kind} {b c : List (MapKey × Value)} (hp : b.Perm c) : ∀ a, DownM S0 S k0 a b →
    ∃ a', a.Perm a' ∧ DownM S0 S k0 a' c := by
  induction hp with
  | nil => intro a h; exact ⟨a, .refl a, h⟩
  | cons p _ ih =>
    intro a h
    cases h with
    | cons h t =>
      obtain ⟨a', h1, h2⟩ := ih _ t
      exact ⟨_, h1.cons _, .cons h h2⟩
  | swap p q r =>
    intro a h
    cases h with
    | cons h t =>
      cases t with
      | cons h' t => exact ⟨_, .swap _ _ _, .cons h' (.cons h t)⟩
  | trans _ _ ih1 ih2 =>
    intro a h
    obtain ⟨a1, h1, h2⟩ := ih1 a h
    obtain ⟨a2, h3, h4⟩ := ih2 a1 h2
    exact ⟨a2, h1.trans h3, h4⟩

mutual
/-- Another order of the entries in the old program is another order in the new one. -/
theorem Down.lift : (v : Value) → (k0 : Kind) → (v0 w : Value) → Down S0 S k0 v v0 → Jumbled v0 w →
    ∃ v', Jumbled v v' ∧ Down S0 S k0 v' w
  | .msg d fs, k0, v0, w, hd, hj => by
    cases hj with
    | refl => exact ⟨_, .refl _, hd⟩
    | list | map => cases hd
    | msg hj =>
      cases hd with
      | flat _ _ h => cases h
      | msg h =>
        obtain ⟨gs, h1, h2⟩ := DownS.lift fs _ d _ _ h hj
        exact ⟨.msg d gs, .msg h1, .msg h2⟩
  | .list vs, k0, v0, w, hd, hj => by
    cases hj with
    | refl => exact ⟨_, .refl _, hd⟩
    | msg | map => cases hd
    | list hj =>
      cases hd with
      | flat _ _ h => cases h
      | list h =>
        obtain ⟨ws, h1, h2⟩ := DownL.lift vs _ _ _ h hj
        exact ⟨.list ws, .list h1, .list h2⟩
  | .map kvs, k0, v0, w, hd, hj => by
    cases hj with
    | refl => exact ⟨_, .refl _, hd⟩
    | msg | list => cases hd
    | map hj hp =>
      cases hd with
      | flat _ _ h => cases h
      | map hk h =>
        obtain ⟨kws, h1, h2⟩ := DownM.lift kvs _ _ _ h hj
        obtain ⟨kxs, h3, h4⟩ := DownM.perm hp kws h2
        exact ⟨.map kxs, .map h1 h3, .map hk h4⟩
  | .bool x, k0, v0, w, hd, hj => by
    obtain rfl := hd.eq_flat rfl; cases hj; exact ⟨_, .refl _, hd⟩
  | .i32 x, k0, v0, w, hd, hj => by
    obtain rfl := hd.eq_flat rfl; cases hj; exact ⟨_, .refl _, hd⟩
  | .i64 x, k0, v0, w, hd, hj => by
    obtain rfl := hd.eq_flat rfl; cases hj; exact ⟨_, .refl _, hd⟩
  | .u32 x, k0, v0, w, hd, hj => by
    obtain rfl := hd.eq_flat rfl; cases hj; exact ⟨_, .refl _, hd⟩
  | .u64 x, k0, v0, w, hd, hj => by
    obtain rfl := hd.eq_flat rfl; cases hj; exact ⟨_, .refl _, hd⟩
  | .f32 x, k0, v0, w, hd, hj => by
    obtain rfl := hd.eq_flat rfl; cases hj; exact ⟨_, .refl _, hd⟩
  | .f64 x, k0, v0, w, hd, hj => by
    obtain rfl := hd.eq_flat rfl; cases hj; exact ⟨_, .refl _, hd⟩
  | .str x, k0, v0, w, hd, hj => by
    obtain rfl := hd.eq_flat rfl; cases hj; exact ⟨_, .refl _, hd⟩
  | .bytes x, k0, v0, w, hd, hj => by
    obtain rfl := hd.eq_flat rfl; cases hj; exact ⟨_, .refl _, hd⟩
  | .enum x, k0, v0, w, hd, hj => by
    obtain rfl := hd.eq_flat rfl; cases hj; exact ⟨_, .refl _, hd⟩
theorem DownL.lift : (a : List Value) → (k0 : Kind) → (b c : List Value) → DownL S0 S k0 a b → JumbledL b c →
    ∃ a', JumbledL a a' ∧ DownL S0 S k0 a' c
  | [], _, _, _, hd, hj => by cases hd; cases hj; exact ⟨[], .nil, .nil⟩
  | v :: r, _, _, _, hd, hj => by
    cases hd with
    | cons h t =>
    cases hj with
    | cons hj tj =>
    obtain ⟨v', h1, h2⟩ := Down.lift v _ _ _ h hj
    obtain ⟨r', h3, h4⟩ := DownL.lift r _ _ _ t tj
    exact ⟨v' :: r', .cons h1 h3, .cons h2 h4⟩
theorem DownM.lift : (a : List (MapKey × Value)) → (k0 : Kind) → (b c : List (MapKey × Value)) →
    DownM S0 S k0 a b → JumbledM b c → ∃ a', JumbledM a a' ∧ DownM S0 S k0 a' c
  | [], _, _, _, hd, hj => by cases hd; cases hj; exact ⟨[], .nil, .nil⟩
  | (k, v) :: r, _, _, _, hd, hj => by
    cases hd with
    | cons h t =>
    cases hj with
    | cons hj tj =>
    obtain ⟨v', h1, h2⟩ := Down.lift v _ _ _ h hj
    obtain ⟨r', h3, h4⟩ := DownM.lift r _ _ _ t tj
    exact ⟨(k, v') :: r', .cons h1 h3, .cons h2 h4⟩
theorem DownS.lift : (a : List (Nat × Slot)) → (d0 d : Nat) → (b c : List (Nat × Slot)) →
    DownS S0 S d0 d a b → JumbledS b c → ∃ a', JumbledS a a' ∧ DownS S0 S d0 d a' c
  | [], _, _, _, _, hd, hj => by cases hd; cases hj; exact ⟨[], .nil, .nil⟩
  | (n, .taken) :: r, _, _, _, _, hd, tj => by
    cases hd with
    | taken t =>
    obtain ⟨r', h3, h4⟩ := DownS.lift r _ _ _ _ t tj
    exact ⟨(n, .taken) :: r', .keep h3, .taken h4⟩
  | (n, .unknown u) :: r, _, _, _, _, hd, hj => by
    cases hd with
    | unknown t =>
    cases hj with
    | keep tj =>
    obtain ⟨r', h3, h4⟩ := DownS.lift r _ _ _ _ t tj
    exact ⟨(n, .unknown u) :: r', .keep h3, .unknown h4⟩
  | (n, .val v) :: r, _, _, _, _, hd, hj => by
    cases hd with
    | absent hk hn h t =>
      obtain ⟨r', h3, h4⟩ := DownS.lift r _ _ _ _ t hj
      exact ⟨(n, .val v) :: r', .keep h3, .absent hk hn h h4⟩
    | vanish hk hn hp h0 he t =>
      obtain ⟨r', h3, h4⟩ := DownS.lift r _ _ _ _ t hj
      exact ⟨(n, .val v) :: r', .keep h3, .vanish hk hn hp h0 he h4⟩
    | strange hk hn hp h0 he hw h t =>
      cases hj with
      | keep tj =>
        obtain ⟨r', h3, h4⟩ := DownS.lift r _ _ _ _ t tj
        exact ⟨(n, .val v) :: r', .keep h3, .strange hk hn hp h0 he hw h h4⟩
    | known hk hn hp hk0 hn0 h t =>
      cases hj with
      | keep tj =>
        obtain ⟨r', h3, h4⟩ := DownS.lift r _ _ _ _ t tj
        exact ⟨(n, .val v) :: r', .keep h3, .known hk hn hp hk0 hn0 h h4⟩
      | val hj tj =>
        obtain ⟨r', h3, h4⟩ := DownS.lift r _ _ _ _ t tj
        obtain ⟨v', h1, h2⟩ := Down.lift v _ _ _ h hj
        exact ⟨(n, .val v') :: r', .val h1 h3, .known hk hn ((h1.hasVal S _).symm.trans hp) hk0 hn0 h2 h4⟩
end

theorem encUSet_inj {d : Nat} {x y : USet} (hx : ∀ p ∈ x, ValidNumber p.1 ∧ p.2.Wf ∧ p.2.depth ≤ d)
    (hy : ∀ p ∈ y, ValidNumber p.1 ∧ p.2.Wf ∧ p.2.depth ≤ d) (h : encUSet x = encUSet y) : x = y := by
  have a := parsed_enc x hx
  rw [h] at a
  exact parsed_unique (parsed_enc y hy) a

theorem Known.num {T : Schema} (hT : T.wf = true) {d : Nat} {f : FieldDesc} (h : Known T d f) : ValidNumber f.number := by
  rcases h with h | h
  · exact (Schema.wf_field hT h).1.num
  · exact (Schema.wf_ext hT h).1.num

mutual
/-- The old program's message is determined by the new one's. -/
theorem Down.unique (hS0 : S0.wf = true) (hS : S.wf = true) : (v : Value) → (k0 : Kind) → (a b : Value) →
    Down S0 S k0 v a → Down S0 S k0 v b → a = b
  | .msg d fs, k0, a, b, ha, hb => by
    cases ha with
    | flat _ _ h => cases h
    | msg h =>
      cases hb with
      | flat _ _ h => cases h
      | msg h' => rw [DownS.unique hS0 hS fs _ _ _ _ h h']
  | .list vs, k0, a, b, ha, hb => by
    cases ha with
    | flat _ _ h => cases h
    | list h =>
      cases hb with
      | flat _ _ h => cases h
      | list h' => rw [DownL.unique hS0 hS vs _ _ _ h h']
  | .map kvs, k0, a, b, ha, hb => by
    cases ha with
    | flat _ _ h => cases h
    | map hk h =>
      cases hb with
      | flat _ _ h => cases h
      | map hk' h' =>
        rw [hk] at hk'; cases hk'
        rw [DownM.unique hS0 hS kvs _ _ _ h h']
  | .bool x, k0, a, b, ha, hb => (ha.eq_flat rfl).trans (hb.eq_flat rfl).symm
  | .i32 x, k0, a, b, ha, hb => (ha.eq_flat rfl).trans (hb.eq_flat rfl).symm
  | .i64 x, k0, a, b, ha, hb => (ha.eq_flat rfl).trans (hb.eq_flat rfl).symm
  | .u32 x, k0, a, b, ha, hb => (ha.eq_flat rfl).trans (hb.eq_flat rfl).symm
  | .u64 x, k0, a, b, ha, hb => (ha.eq_flat rfl).trans (hb.eq_flat rfl).symm
  | .f32 x, k0, a, b, ha, hb => (ha.eq_flat rfl).trans (hb.eq_flat rfl).symm
  | .f64 x, k0, a, b, ha, hb => (ha.eq_flat rfl).trans (hb.eq_flat rfl).symm
  | .str x, k0, a, b, ha, hb => (ha.eq_flat rfl).trans (hb.eq_flat rfl).symm
  | .bytes x, k0, a, b, ha, hb => (ha.eq_flat rfl).trans (hb.eq_flat rfl).symm
  | .enum x, k0, a, b, ha, hb => (ha.eq_flat rfl).trans (hb.eq_flat rfl).symm
theorem DownL.unique (hS0 : S0.wf = true) (hS : S.wf = true) : (vs : List Value) → (k0 : Kind) → (a b : List Value) →
    DownL S0 S k0 vs a → DownL S0 S k0 vs b → a = b
  | [], _, _, _, ha, hb => by cases ha; cases hb; rfl
  | v :: r, _, _, _, ha, hb => by
    cases ha with
    | cons h t =>
    cases hb with
    | cons h' t' =>
    rw [Down.unique hS0 hS v _ _ _ h h', DownL.unique hS0 hS r _ _ _ t t']
theorem DownM.unique (hS0 : S0.wf = true) (hS : S.wf = true) : (kvs : List (MapKey × Value)) → (k0 : Kind) →
    (a b : List (MapKey × Value)) → DownM S0 S k0 kvs a → DownM S0 S k0 kvs b → a = b
  | [], _, _, _, ha, hb => by cases ha; cases hb; rfl
  | (k, v) :: r, _, _, _, ha, hb => by
    cases ha with
    | cons h t =>
    cases hb with
    | cons h' t' =>
    rw [Down.unique hS0 hS v _ _ _ h h', DownM.unique hS0 hS r _ _ _ t t']
theorem DownS.unique (hS0 : S0.wf = true) (hS : S.wf = true) : (fs : List (Nat × Slot)) → (d0 d : Nat) →
    (a b : List (Nat × Slot)) → DownS S0 S d0 d fs a → DownS S0 S d0 d fs b → a = b
  | [], _, _, _, _, ha, hb => by cases ha; cases hb; rfl
  | (n, .taken) :: r, d0, d, _, _, ha, hb => by
    cases ha with
    | taken t => cases hb with
      | taken t' => exact DownS.unique hS0 hS r d0 d _ _ t t'
  | (n, .unknown u) :: r, d0, d, _, _, ha, hb => by
    cases ha with
    | unknown t => cases hb with
      | unknown t' => rw [DownS.unique hS0 hS r d0 d _ _ t t']
  | (n, .val v) :: r, d0, d, _, _, ha, hb => by
    have same : ∀ {f g : FieldDesc}, Known S d f → f.number = n → Known S d g → g.number = n → g = f :=
      fun h1 h2 h3 h4 => known_same hS h1 h3 (h4.trans h2.symm)
    cases ha with
    | absent hk hn h t =>
      cases hb with
      | absent _ _ _ t' => exact DownS.unique hS0 hS r d0 d _ _ t t'
      | vanish hk' hn' hp | strange hk' hn' hp | known hk' hn' hp =>
        cases same hk hn hk' hn'; exact absurd hp h
    | vanish hk hn hp h0 he t =>
      cases hb with
      | absent hk' hn' h => cases same hk hn hk' hn'; exact absurd hp h
      | vanish _ _ _ _ _ t' => exact DownS.unique hS0 hS r d0 d _ _ t t'
      | strange hk' hn' hp h0 he' hw h t' =>
        cases same hk hn hk' hn'
        rw [he] at he'
        exact absurd (encUSet_inj (d := depthVal v) (y := []) (fun p hp => ⟨by rw [(h p hp).1]; exact hk.num hS, (h p hp).2⟩) nofun
          (Option.some.inj he').symm) hw
      | known _ _ _ hk0 hn0 => exact absurd hn0 (h0 _ hk0)
    | strange hk hn hp h0 he hw h t =>
      cases hb with
      | absent hk' hn' h => cases same hk hn hk' hn'; exact absurd hp h
      | vanish hk' hn' hp h0 he' t' =>
        cases same hk hn hk' hn'
        rw [he] at he'
        exact absurd (encUSet_inj (d := depthVal v) (y := []) (fun p hp => ⟨by rw [(h p hp).1]; exact hk.num hS, (h p hp).2⟩) nofun
          (Option.some.inj he')) hw
      | strange hk' hn' hp h0 he' hw' h' t' =>
        cases same hk hn hk' hn'
        rw [he] at he'
        rw [encUSet_inj (d := depthVal v) (fun p hp => ⟨by rw [(h p hp).1]; exact hk.num hS, (h p hp).2⟩)
          (fun p hp => ⟨by rw [(h' p hp).1]; exact hk.num hS, (h' p hp).2⟩) (Option.some.inj he'),
          DownS.unique hS0 hS r d0 d _ _ t t']
      | known _ _ _ hk0 hn0 => exact absurd hn0 (h0 _ hk0)
    | known hk hn hp hk0 hn0 h t =>
      cases hb with
      | absent hk' hn' h => cases same hk hn hk' hn'; exact absurd hp h
      | vanish _ _ _ h0 => exact absurd hn0 (h0 _ hk0)
      | strange _ _ _ h0 => exact absurd hn0 (h0 _ hk0)
      | known _ _ _ hk0' hn0' h' t' =>
        cases known_same hS0 hk0 hk0' (hn0'.trans hn0.symm)
        rw [Down.unique hS0 hS v _ _ _ h h', DownS.unique hS0 hS r d0 d _ _ t t']
end

end
end Verif.Dyn
