import Verif.Dyn.Left
/-!
What a failing `merge` leaves, said without following the code: everything up to the point of
failure has been merged, the field at that point may be half written, nothing else is touched.
-/
set_option autoImplicit false
namespace Verif.Dyn
open Verif.Wire

/-- A loop over fields comes to its end: at a given number of bytes left, or at the end of a group. -/
def Ends : Option Nat → Bytes → Prop
  | some n, r => r.length ≤ n
  | none, r => ∃ n rest, decodeKey r = .ok (n, .endGroup, rest)

/-- There is no length followed by as many bytes. -/
def NoLength (b : Bytes) : Prop := ∀ len rest, decodeVarint b = .ok (len, rest) → rest.length < len

/-- `c` is a sequence of elements of a packed list, which read as `ws`. -/
inductive Elems (k : Kind) : Bytes → List Value → Prop
  | nil : Elems k [] []
  | cons {c c' : Bytes} {w : Value} {ws : List Value} (hne : c ≠ [])
      (h : ∀ t, scalarDec k k.wireType (c ++ t) = .ok (w, t)) (hs : Elems k c' ws) :
      Elems k (c ++ c') (w :: ws)

mutual
/-- `m'` is `m` with all fields at the front of `b` merged up to the end of the loop, or up to one that
cannot be read, which may be half written. `d` is how many more levels of nesting the decoder allows. -/
inductive Cut (S : Schema) : Nat → Option Nat → DynMsg → Bytes → DynMsg → Prop
  | ended {d : Nat} {lim : Option Nat} {m m1 : DynMsg} {c r : Bytes}
      (h : mergeAll (msgMerge S d) m c = .ok (m1, [])) (he : Ends lim r) : Cut S d lim m (c ++ r) m1
  | torn {d : Nat} {lim : Option Nat} {m m1 m' : DynMsg} {c r : Bytes}
      (h : mergeAll (msgMerge S d) m c = .ok (m1, [])) (he : ¬ Ends lim r) (t : Torn S d m1 r m') :
      Cut S d lim m (c ++ r) m'
/-- The field at the front of `r` cannot be read. At most that field differs, apart from members of its
oneof. -/
inductive Torn (S : Schema) : Nat → DynMsg → Bytes → DynMsg → Prop
  | key {d : Nat} {m : DynMsg} {r : Bytes} {e : Err} (hk : decodeKey r = .error e) : Torn S d m r m
  | unknown {d : Nat} {m : DynMsg} {r rest : Bytes} {n : Nat} {w : WireType} {e : Err}
      (hk : decodeKey r = .ok (n, w, rest)) (he : msgMerge S d m n w rest = .error e)
      (hu : ∀ md, S.msg? m.desc = some md → md.getField n = none ∧ md.getExtension n = none) :
      Torn S d m r m
  | none {d : Nat} {m : DynMsg} {r rest : Bytes} {md : MsgDesc} {n : Nat} {w : WireType}
      {f : FieldDesc} {sib : List Nat} {e : Err}
      (hmd : S.msg? m.desc = some md) (hk : decodeKey r = .ok (n, w, rest))
      (hf : (md.getField n = some f ∧ sib = siblings md f) ∨
        (md.getField n = Option.none ∧ md.getExtension n = some f ∧ sib = []))
      (he : msgMerge S d m n w rest = .error e) (hg : FieldSet.getMut S sib m.fields f = Option.none) :
      Torn S d m r m
  | field {d : Nat} {m : DynMsg} {r rest : Bytes} {md : MsgDesc} {n : Nat} {w : WireType}
      {f : FieldDesc} {sib : List Nat} {fs : FieldSet} {v v' : Value} {e : Err}
      (hmd : S.msg? m.desc = some md) (hk : decodeKey r = .ok (n, w, rest))
      (hf : (md.getField n = some f ∧ sib = siblings md f) ∨
        (md.getField n = Option.none ∧ md.getExtension n = some f ∧ sib = []))
      (he : msgMerge S d m n w rest = .error e)
      (hg : FieldSet.getMut S sib m.fields f = some (fs, v)) (t : TornVal S d f w v rest v') :
      Torn S d m r ⟨m.desc, FieldSet.write f v' fs⟩
/-- A half written field: a string may change, a packed list has grown by the elements that could be
read, a message is merged up to the point of failure, everything else stays. -/
inductive TornVal (S : Schema) : Nat → FieldDesc → WireType → Value → Bytes → Value → Prop
  | keep {d : Nat} {f : FieldDesc} {w : WireType} (v : Value) (b : Bytes) (hs : ∀ s, v ≠ .str s)
      (hl : ∀ vs, v ≠ .list vs) (hm : ∀ i gs, v ≠ .msg i gs) : TornVal S d f w v b v
  | str {d : Nat} {f : FieldDesc} {w : WireType} (s s' b : Bytes) : TornVal S d f w (.str s) b (.str s')
  | single {d : Nat} {f : FieldDesc} {w : WireType} (vs : List Value) (b : Bytes)
      (h : w ≠ .lengthDelimited ∨ f.kind.packable = false ∨ NoLength b ∨ kindDefault S f.kind = Option.none) :
      TornVal S d f w (.list vs) b (.list vs)
  | list {d : Nat} {f : FieldDesc} (vs ws : List Value) (b c r : Bytes) (len : Nat)
      (hp : f.kind.packable = true) (hl : decodeVarint b = .ok (len, c ++ r)) (hle : len ≤ (c ++ r).length)
      (he : Elems f.kind c ws)
      (hr : r.length ≤ (c ++ r).length - len ∨ ∃ e, scalarDec f.kind f.kind.wireType r = .error e) :
      TornVal S d f .lengthDelimited (.list vs) b (.list (vs ++ ws))
  | closed {d : Nat} {f : FieldDesc} {w : WireType} {i : Nat} {gs : FieldSet} {b : Bytes}
      (h : d = 0 ∨ (f.group = true ∧ w ≠ .startGroup) ∨
        (f.group = false ∧ (w ≠ .lengthDelimited ∨ NoLength b))) :
      TornVal S d f w (.msg i gs) b (.msg i gs)
  | msg {d : Nat} {f : FieldDesc} {i : Nat} {gs gs' : FieldSet} {b b' : Bytes} {len : Nat}
      (hg : f.group = false) (hl : decodeVarint b = .ok (len, b')) (hle : len ≤ b'.length)
      (h : Cut S d (some (b'.length - len)) ⟨i, gs⟩ b' ⟨i, gs'⟩) :
      TornVal S (d + 1) f .lengthDelimited (.msg i gs) b (.msg i gs')
  | group {d : Nat} {f : FieldDesc} {i : Nat} {gs gs' : FieldSet} {b : Bytes} (hg : f.group = true)
      (h : Cut S d Option.none ⟨i, gs⟩ b ⟨i, gs'⟩) :
      TornVal S (d + 1) f .startGroup (.msg i gs) b (.msg i gs')
end

section
variable {σ : Type}

/-- Where a loop over fields stands when it is given up. -/
def Stopped (f : FieldFn σ) (l : LeftFn σ) (lim : Option Nat) (st : σ) (b : Bytes) (st' : σ) : Prop :=
  ∃ c r st1, b = c ++ r ∧ Steps (keyThen f) st c st1 ∧ ((Ends lim r ∧ st' = st1) ∨ (¬ Ends lim r ∧
    ((∃ e, decodeKey r = .error e ∧ st' = st1) ∨ ∃ n w rest e,
      decodeKey r = .ok (n, w, rest) ∧ f st1 n w rest = .error e ∧ st' = l st1 n w rest)))

theorem Stopped.ended {f : FieldFn σ} {l : LeftFn σ} {lim : Option Nat} {st : σ} {b : Bytes} (h : Ends lim b) :
    Stopped f l lim st b st := ⟨[], b, st, rfl, Steps.nil _, .inl ⟨h, rfl⟩⟩

theorem Stopped.step {f : FieldFn σ} {l : LeftFn σ} {lim : Option Nat} (hf : FGood f) {st st1 st' : σ} {b b1 : Bytes}
    (h : keyThen f st b = .ok (st1, b1)) (hs : Stopped f l lim st1 b1 st') : Stopped f l lim st b st' := by
  obtain ⟨c, r, st2, hb, hst, hx⟩ := hs
  obtain ⟨c0, hc0, hg⟩ := keyThen_good hf st _ _ _ h
  have hlt := keyThen_strict hf st _ _ _ h
  refine ⟨c0 ++ c, r, st2, by rw [hc0, hb, List.append_assoc], Steps.cons ?_ hg hst, hx⟩
  rintro rfl
  rw [hc0] at hlt; simp at hlt

theorem loopLeft_stopped {f : FieldFn σ} {l : LeftFn σ} (hf : FGood f) (limit : Nat) :
    ∀ (k : Nat) (st : σ) (b : Bytes), b.length < k →
      Stopped f l (some limit) st b (loopLeft limit (keyThen f) (keyThenLeft l) k st b) := by
  intro k
  induction k with
  | zero => intro st b hk; omega
  | succ k ih =>
    intro st b hlk
    unfold loopLeft
    split
    · next h => exact .ended h
    · next hlim =>
      split
      · rename_i e he
        unfold keyThen at he
        unfold keyThenLeft
        split at he
        · rename_i e' hk
          simp only [hk]
          exact ⟨[], b, st, rfl, Steps.nil _, .inr ⟨hlim, .inl ⟨e', hk, rfl⟩⟩⟩
        · rename_i n w rest hk
          simp only [hk]
          exact ⟨[], b, st, rfl, Steps.nil _, .inr ⟨hlim, .inr ⟨n, w, rest, e, hk, he, rfl⟩⟩⟩
      · rename_i st1 b1 he
        have := keyThen_strict hf st _ _ _ he
        exact .step hf he (ih st1 b1 (by omega))

theorem groupLoopLeft_stopped {f : FieldFn σ} {l : LeftFn σ} (hf : FGood f) :
    ∀ (k : Nat) (st : σ) (b : Bytes), b.length < k → Stopped f l none st b (groupLoopLeft f l k st b) := by
  intro k
  induction k with
  | zero => intro st b hk; omega
  | succ k ih =>
    intro st b hlk
    unfold groupLoopLeft
    split
    · rename_i e hk
      refine ⟨[], b, st, rfl, Steps.nil _, .inr ⟨?_, .inl ⟨e, hk, rfl⟩⟩⟩
      rintro ⟨n, rest, h⟩
      rw [hk] at h
      cases h
    · rename_i n w rest hk
      split
      · rename_i hw
        exact .ended ⟨n, rest, by rw [hk, hw]⟩
      · rename_i hw
        split
        · rename_i e he
          refine ⟨[], b, st, rfl, Steps.nil _, .inr ⟨?_, .inr ⟨n, w, rest, e, hk, he, rfl⟩⟩⟩
          rintro ⟨n', rest', h⟩
          rw [hk] at h
          cases h
          exact hw rfl
        · rename_i st1 b1 he
          have hkt : keyThen f st b = .ok (st1, b1) := by
            unfold keyThen
            simp only [hk]; exact he
          have := keyThen_strict hf st _ _ _ hkt
          exact .step hf hkt (ih st1 b1 (by omega))

end

theorem mergeAll_of_steps {σ : Type} {f : FieldFn σ} {a b : σ} {c : Bytes} (h : Steps (keyThen f) a c b) :
    mergeAll f a c = .ok (b, []) := by
  unfold mergeAll
  have := loopTo_of_steps h [] (c.length + 1) (by omega)
  simpa using this

theorem singular_packable {S : Schema} {nested : Option (FieldFn DynMsg)} {f : FieldDesc} {v0 : Value}
    (hp : f.kind.packable = true) (hv : kindDefault S f.kind = some v0) (w : WireType) (b : Bytes) :
    singularMerge nested f v0 w b = scalarDec f.kind w b := by
  generalize hk : f.kind = k at hp hv
  unfold singularMerge
  cases k <;> simp only [kindDefault, Kind.packable, Bool.false_eq_true, Option.some.injEq, Option.map_eq_some_iff] at hp hv
  case enum => obtain ⟨x, _, rfl⟩ := hv; simp [hk, Value.isValid]
  all_goals subst hv; simp [hk, Value.isValid]

/-- A packed list that fails has grown by the elements before the failing one. -/
theorem loopLeft_elems {body : List Value → Bytes → R (List Value × Bytes)} {k : Kind}
    (hb : ∀ vs b, body vs b = mapV (fun v => vs ++ [v]) (scalarDec k k.wireType b)) (limit : Nat) :
    ∀ (n : Nat) (vs : List Value) (b : Bytes), b.length < n →
      ∃ c r ws, b = c ++ r ∧ Elems k c ws ∧
        (r.length ≤ limit ∨ ∃ e, scalarDec k k.wireType r = .error e) ∧
        loopLeft limit body (fun vs _ => vs) n vs b = vs ++ ws := by
  intro n
  induction n with
  | zero => intro vs b hk; omega
  | succ n ih =>
    intro vs b hn
    unfold loopLeft
    split
    · next h => exact ⟨[], b, [], rfl, .nil, .inl h, by simp⟩
    · split
      · next e he =>
        refine ⟨[], b, [], rfl, .nil, .inr ?_, by simp⟩
        rw [hb] at he
        cases hx : scalarDec k k.wireType b with
        | error e => exact ⟨e, rfl⟩
        | ok x => rw [hx] at he; cases he
      · next vs1 b1 he =>
        rw [hb] at he
        obtain ⟨x, hx, rfl⟩ := mapV_ok he
        obtain ⟨c0, rfl, hg0⟩ := good_scalarDec _ _ _ _ _ hx
        have hs := strict_scalarDec _ _ _ _ _ hx
        obtain ⟨c, r, ws, rfl, h1, h2, h3⟩ := ih (vs ++ [x]) b1 (by simp at hs hn; omega)
        refine ⟨c0 ++ c, r, x :: ws, (List.append_assoc ..).symm, .cons ?_ hg0 h1, h2, by rw [h3]; simp⟩
        rintro rfl
        simp at hs

theorem listLeft_torn {S : Schema} {d : Nat} {nested : Option (FieldFn DynMsg)} {f : FieldDesc}
    {vs : List Value} {w : WireType} {b : Bytes} :
    TornVal S d f w (.list vs) b (.list (listLeft S nested f vs w b)) := by
  unfold listLeft
  split
  · next h => exact .single vs b (.inr (.inr (.inr h)))
  · next v0 hv =>
    split
    · next h =>
      obtain ⟨rfl, hp⟩ := h
      unfold mergeLoopLeft
      split
      · next e he => exact .single vs b (.inr (.inr (.inl fun len rest h => by rw [he] at h; cases h)))
      · next len rest he =>
        split
        · next hlt =>
          refine .single vs b (.inr (.inr (.inl fun len' rest' h => ?_)))
          rw [he] at h; cases h; exact hlt
        · next hle =>
          obtain ⟨c, r, ws, rfl, h1, h2, h3⟩ := loopLeft_elems
            (body := fun vs b => mapV (fun v => vs ++ [v]) (singularMerge nested f v0 f.kind.wireType b))
            (fun vs b => by rw [singular_packable hp hv]) (rest.length - len) (rest.length + 1) vs rest (by omega)
          rw [h3]
          exact .list vs ws b c r len hp he (by omega) h1 h2
    · next h =>
      refine .single vs b ?_
      by_cases hw : w = .lengthDelimited
      · exact .inr (.inl (by cases hp : f.kind.packable <;> simp_all))
      · exact .inl hw

section
variable {lost : Bytes → WireType → Bytes → Bytes} {S : Schema}

/-- What `nested` is at a given level. -/
def leftAt (lost : Bytes → WireType → Bytes → Bytes) (S : Schema) : Nat → Option (FieldFn DynMsg × LeftFn DynMsg)
  | 0 => none
  | d + 1 => some (msgMerge S d, msgLeft lost S d)

theorem msgLeft_eq (d : Nat) : msgLeft lost S d = fieldLeft lost S (leftAt lost S d) := by
  cases d <;> rfl

theorem fieldLeft_desc {nested : Option (FieldFn DynMsg × LeftFn DynMsg)} (m : DynMsg) (n : Nat)
    (w : WireType) (b : Bytes) : (fieldLeft lost S nested m n w b).desc = m.desc := by
  unfold fieldLeft mergeIntoLeft
  split
  · rfl
  · split
    · split <;> rfl
    · split
      · split <;> rfl
      · rfl

/-- The message left by `merge_field` is torn, given the same one level down. -/
theorem torn_of {d : Nat}
    (ih : ∀ d', d = d' + 1 → ∀ lim m b m', Stopped (msgMerge S d') (msgLeft lost S d') lim m b m' →
      Cut S d' lim m b m' ∧ m'.desc = m.desc)
    {m : DynMsg} {r rest : Bytes} {n : Nat} {w : WireType} {e : Err}
    (hk : decodeKey r = .ok (n, w, rest)) (he : msgMerge S d m n w rest = .error e) :
    Torn S d m r (msgLeft lost S d m n w rest) := by
  have hval : ∀ (f : FieldDesc) (v : Value), TornVal S d f w v rest (valueLeft lost S (leftAt lost S d) f v w rest) := by
    intro f v
    unfold valueLeft
    split
    · exact listLeft_torn
    · exact .keep _ _ (fun _ => by simp) (fun _ => by simp) (fun _ _ => by simp)
    · rename_i hnl _
      unfold singularLeft
      split
      · rename_i i gs _
        cases hgr : f.group with
        | true =>
          simp only [if_true]
          unfold groupLeft
          split
          · next hw => exact .closed (.inr (.inl ⟨hgr, hw⟩))
          · next hw =>
            have hw : w = .startGroup := Decidable.not_not.1 hw
            subst hw
            split
            · next hn =>
              cases d with
              | zero => exact .closed (.inl rfl)
              | succ d => cases hn
            · rename_i g l hn
              cases d with
              | zero => cases hn
              | succ d =>
                simp only [leftAt, Option.some.injEq, Prod.mk.injEq] at hn
                obtain ⟨rfl, rfl⟩ := hn
                obtain ⟨hc, hd⟩ := ih d rfl _ _ _ _ (groupLoopLeft_stopped (l := msgLeft lost S d)
                  (good_msgMerge S d) (rest.length + 1) ⟨i, gs⟩ rest (by omega))
                generalize groupLoopLeft (msgMerge S d) (msgLeft lost S d) (rest.length + 1) ⟨i, gs⟩ rest = m' at hc hd
                obtain ⟨i', gs'⟩ := m'
                simp only at hd; subst hd
                exact .group hgr hc
        | false =>
          simp only [Bool.false_eq_true, if_false]
          unfold messageLeft
          split
          · next hw => exact .closed (.inr (.inr ⟨hgr, .inl hw⟩))
          · next hw =>
            have hw : w = .lengthDelimited := Decidable.not_not.1 hw
            subst hw
            split
            · next hn =>
              cases d with
              | zero => exact .closed (.inl rfl)
              | succ d => cases hn
            · rename_i g l hn
              cases d with
              | zero => cases hn
              | succ d =>
                simp only [leftAt, Option.some.injEq, Prod.mk.injEq] at hn
                obtain ⟨rfl, rfl⟩ := hn
                unfold mergeLoopLeft
                split
                · next hx =>
                  exact .closed (.inr (.inr ⟨hgr, .inr fun len' rest' h => by rw [hx] at h; cases h⟩))
                · rename_i len rest' hlen
                  split
                  · next hlt =>
                    refine .closed (.inr (.inr ⟨hgr, .inr fun len' rest' h => ?_⟩))
                    rw [hlen] at h; cases h; exact hlt
                  · next hle =>
                    obtain ⟨hc, hd⟩ := ih d rfl _ _ _ _ (loopLeft_stopped (l := msgLeft lost S d)
                      (good_msgMerge S d) (rest'.length - len) (rest'.length + 1) ⟨i, gs⟩ rest' (by omega))
                    generalize loopLeft (rest'.length - len) (keyThen (msgMerge S d))
                      (keyThenLeft (msgLeft lost S d)) (rest'.length + 1) ⟨i, gs⟩ rest' = m' at hc hd
                    obtain ⟨i', gs'⟩ := m'
                    simp only at hd; subst hd
                    exact .msg hgr hlen (by omega) hc
      · exact .str _ _ _
      · rename_i hnm hns
        exact .keep _ _ hns hnl hnm
  rw [msgLeft_eq]
  unfold fieldLeft
  split
  · next hmd => exact .unknown hk he (fun md h => by rw [hmd] at h; cases h)
  · rename_i md hmd
    split
    · rename_i f hf
      unfold mergeIntoLeft
      split
      · next hg => exact .none hmd hk (.inl ⟨hf, rfl⟩) he hg
      · rename_i fs v hg
        exact .field hmd hk (.inl ⟨hf, rfl⟩) he hg (hval f v)
    · rename_i hf
      split
      · rename_i f hx
        unfold mergeIntoLeft
        split
        · next hg => exact .none hmd hk (.inr ⟨hf, hx, rfl⟩) he hg
        · rename_i fs v hg
          exact .field hmd hk (.inr ⟨hf, hx, rfl⟩) he hg (hval f v)
      · next hx =>
        exact .unknown hk he (fun md' h => by rw [hmd] at h; cases h; exact ⟨hf, hx⟩)

theorem mergeField_desc {d : Nat} {nested : Option (FieldFn DynMsg)} {m m' : DynMsg} {n : Nat}
    {w : WireType} {b b' : Bytes} (h : mergeField S d nested m n w b = .ok (m', b')) : m'.desc = m.desc := by
  have hinto : ∀ sib f, mergeInto S d nested sib f m w b = .ok (m', b') → m'.desc = m.desc := by
    intro sib f h
    unfold mergeInto at h
    split at h
    · cases h
    · obtain ⟨v, _, rfl⟩ := mapV_ok h; rfl
  unfold mergeField at h
  split at h
  · cases h
  · split at h
    · exact hinto _ _ h
    · split at h
      · exact hinto _ _ h
      · split at h
        · cases h
        · split at h
          · cases h
          · cases h; rfl

theorem msgMerge_desc {d : Nat} {m m' : DynMsg} {n : Nat} {w : WireType} {b b' : Bytes}
    (h : msgMerge S d m n w b = .ok (m', b')) : m'.desc = m.desc := by
  cases d with
  | zero => exact mergeField_desc h
  | succ d => exact mergeField_desc h

theorem stopped_desc {d : Nat} {m m1 : DynMsg} {c : Bytes} (h : Steps (keyThen (msgMerge S d)) m c m1) :
    m1.desc = m.desc := by
  induction h with
  | nil => rfl
  | cons hne h hs ih =>
    rw [ih]
    have := h []
    unfold keyThen at this
    split at this
    · cases this
    · exact msgMerge_desc this

theorem cut_of_below {d : Nat} (ih : ∀ d', d = d' + 1 → ∀ lim m b m',
      Stopped (msgMerge S d') (msgLeft lost S d') lim m b m' → Cut S d' lim m b m' ∧ m'.desc = m.desc)
    (lim : Option Nat) (m : DynMsg) (b : Bytes) (m' : DynMsg)
    (h : Stopped (msgMerge S d) (msgLeft lost S d) lim m b m') : Cut S d lim m b m' ∧ m'.desc = m.desc := by
  obtain ⟨c, r, m1, rfl, hs, h⟩ := h
  rcases h with ⟨hl, rfl⟩ | ⟨hl, ⟨e, hk, rfl⟩ | ⟨n, w, rest, e, hk, he, rfl⟩⟩
  · exact ⟨.ended (mergeAll_of_steps hs) hl, stopped_desc hs⟩
  · exact ⟨.torn (mergeAll_of_steps hs) hl (.key hk), stopped_desc hs⟩
  · refine ⟨.torn (mergeAll_of_steps hs) hl (torn_of ih hk he), ?_⟩
    rw [msgLeft_eq, fieldLeft_desc]; exact stopped_desc hs

theorem cut_of_stopped (d : Nat) : ∀ lim m b m', Stopped (msgMerge S d) (msgLeft lost S d) lim m b m' →
    Cut S d lim m b m' ∧ m'.desc = m.desc := by
  induction d with
  | zero => exact cut_of_below (fun d' h => by cases h)
  | succ d ih => exact cut_of_below (fun d' h => by cases h; exact ih)

theorem mergeLeft_cut (lost : Bytes → WireType → Bytes → Bytes) (S : Schema) (m : DynMsg) (b : Bytes) :
    Cut S recursionLimit (some 0) m b (mergeLeft lost S m b) :=
  (cut_of_stopped recursionLimit _ m b _ (loopLeft_stopped (good_msgMerge S recursionLimit) 0 _ m b (by omega))).1

/-- A failing `merge`, cut at the field that fails. -/
theorem mergeLeft_error {m : DynMsg} {b : Bytes} {e : Err} (h : merge S m b = .error e) :
    ∃ c r m1, b = c ++ r ∧ r ≠ [] ∧ merge S m c = .ok m1 ∧ merge S m1 r = .error e ∧
      keyThen (msgMerge S recursionLimit) m1 r = .error e ∧
      mergeLeft lost S m b = keyThenLeft (msgLeft lost S recursionLimit) m1 r ∧
      Torn S recursionLimit m1 r (mergeLeft lost S m b) := by
  have h' : mergeAll (msgMerge S recursionLimit) m b = .error e := by
    unfold merge at h
    split at h
    · rename_i he; cases h; exact he
    · cases h
  have hgood := good_msgMerge S recursionLimit
  obtain ⟨c, r, m1, rfl, hr, hs, hbad, hl⟩ := loopTo_error (keyThenLeft (msgLeft lost S recursionLimit))
    (keyThen_good hgood) (keyThen_strict hgood) _ m b (by omega) h'
  have hall := mergeAll_of_steps hs
  have hm : merge S m c = .ok m1 := by unfold merge; rw [hall]
  refine ⟨c, r, m1, rfl, hr, hm, ?_, hbad, hl, ?_⟩
  · unfold merge mergeAll loopTo
    have : ¬ r.length ≤ 0 := by
      have := List.length_pos_iff.2 hr; omega
    rw [if_neg this, hbad]
  · have : mergeLeft lost S m (c ++ r) = _ := hl
    rw [this]
    unfold keyThenLeft
    unfold keyThen at hbad
    split at hbad
    · rename_i hk; simp only [hk]; exact .key hk
    · rename_i n w rest hk
      simp only [hk]
      refine torn_of ?_ hk hbad
      intro d' _; exact cut_of_stopped d'

end
end Verif.Dyn
