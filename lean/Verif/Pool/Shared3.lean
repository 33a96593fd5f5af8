import Verif.Pool.Shared2
/-!
Two pools that have some files in common: fields, messages, extensions and services.
-/
set_option autoImplicit false
namespace Verif.Pool
open Verif.Wire Verif.Dyn Verif.Props

section
variable {env : Env} {acc acc' : List FileP} {p q : Pool}

theorem KindAlike.packable {k k' : Kind} (h : KindAlike p q k k') : k.packable = k'.packable := by
  cases h <;> rfl

theorem KindAlike.presence {k k' : Kind} (h : KindAlike p q k k') (syn : Syn) (f : FieldP) (g : Bool) :
    supportsPresence syn f (some (k, g)) = supportsPresence syn f (some (k', g)) := by
  cases h <;> rfl

/-- The enums a kind names are alike. -/
def EnumsAlike (p q : Pool) (k k' : Kind) : Prop :=
  ∀ t t', k = .enum t → k' = .enum t' → ∀ a b, p.enums[t]? = some a → q.enums[t']? = some b → EnumAlike p q a b

theorem find_alike {α β : Type} {R : α → α → Prop} {c : α → Bool} {g : α → β} (hr : ∀ x y, R x y → c x = c y ∧ g x = g y) :
    ∀ {a b : List α}, ListAlike R a b → (a.find? c).map g = (b.find? c).map g
  | [], [], _ => rfl
  | [], _ :: _, h => by cases h.1
  | _ :: _, [], h => by cases h.1
  | x :: a, y :: b, h => by
    obtain ⟨h1, h2⟩ := hr _ _ (h.2 0 x y rfl rfl)
    have ih := find_alike hr (a := a) (b := b) ⟨by simpa using h.1, fun i u v hu hv => h.2 (i + 1) u v hu hv⟩
    simp only [List.find?_cons, ← h1]
    cases c x with
    | true => simp only [Option.map_some, h2]
    | false => exact ih

theorem default_shared {k k' : Kind} (hk : KindAlike p q k k') (he : EnumsAlike p q k k') {s : Option Name}
    {v v' : Option Value} (h : DefaultOk env p.enums k s v) (h' : DefaultOk env q.enums k' s v') : v = v' := by
  cases s with
  | none => exact Eq.trans h (Eq.symm h')
  | some s =>
    obtain ⟨w, rfl, hw⟩ := h
    obtain ⟨w', rfl, hw'⟩ := h'
    have : defaultOf env p.enums k s = defaultOf env q.enums k' s := by
      cases hk with
      | message _ => rfl
      | enum h1 h2 =>
        simp only [defaultOf] at hw hw' ⊢
        split at hw
        · cases hw
        · next a ha =>
          split at hw'
          · cases hw'
          · next b hb =>
            have ea := he _ _ rfl rfl a b ha hb
            simp only [Except.ok.injEq]
            exact find_alike (R := ValueAlike p q) (fun x y h => ⟨by rw [h.id.name], by rw [h.number]⟩) ea.values
      | scalar h1 h2 => cases k <;> first | rfl | exact absurd rfl (h2 _)
    rw [hw, hw'] at this
    simp only [Except.ok.injEq] at this
    exact this

theorem scalarKind_plain {t : PType} {k : Kind} (h : scalarKind t = some k) :
    (∀ t, k ≠ .message t) ∧ ∀ t, k ≠ .enum t := by
  cases t <;> cases h <;> exact ⟨fun _ h => (by cases h), fun _ h => (by cases h)⟩

theorem Settled.shared_kinds (hc : Coherent acc acc') (h : Settled env acc p) (h' : Settled env acc' q) (hw : WellNamed acc)
    (hw' : WellNamed acc') {i j : Nat} (hs : Shared acc acc' i j) {full : Name}
    {f : FieldP} {k k' : Kind} {g g' : Bool} (hk : KindOk p f k g) (hk' : KindOk q f k' g')
    (hm : f.typeName ≠ [] → ∃ n, KindNamed p n k ∧ Meant acc p i true full f.typeName n)
    (hm' : f.typeName ≠ [] → ∃ n, KindNamed q n k' ∧ Meant acc' q j true full f.typeName n) :
    (KindAlike p q k k' ∧ EnumsAlike p q k k') ∧ g = g' := by
  have key : f.typeName ≠ [] → KindAlike p q k k' ∧ EnumsAlike p q k k' := by
    intro hne
    obtain ⟨n, h1, h2⟩ := hm hne
    obtain ⟨n', g1, g2⟩ := hm' hne
    obtain ⟨rfl, a, b, x, hab, hd, _⟩ := h.shared_meant hc h' hw hw' hs h2 g2
    exact kind_shared h.desc h'.desc hab hd h1 g1
  cases hk with
  | scalar _ h0 h1 =>
    cases hk' with
    | scalar _ _ g1 =>
      cases h1.symm.trans g1
      obtain ⟨e1, e2⟩ := scalarKind_plain h1
      exact ⟨⟨.scalar e1 e2, fun t _ ht => absurd ht (e2 t)⟩, rfl⟩
    | message i hne => exact absurd h0 hne
    | enum i hne => exact absurd h0 hne
  | message i hne _ =>
    have e := key hne
    cases hk' with
    | scalar _ h0 _ => exact absurd h0 hne
    | message j _ _ => exact ⟨e, rfl⟩
    | enum j _ _ => cases e.1
  | enum i hne _ =>
    have e := key hne
    cases hk' with
    | scalar _ h0 _ => exact absurd h0 hne
    | message j _ _ => cases e.1
    | enum j _ _ => exact ⟨e, rfl⟩

theorem Settled.shared_index (hc : Coherent acc acc') (h : Settled env acc p) (h' : Settled env acc' q) (hw : WellNamed acc)
    (hw' : WellNamed acc') {i j : Nat} (hs : Shared acc acc' i j) {full name : Name} {t t' : Nat}
    (hm : ∃ n, MessageNamed p n t ∧ Meant acc p i false full name n)
    (hm' : ∃ n, MessageNamed q n t' ∧ Meant acc' q j false full name n) : MessageAlike p q t t' := by
  obtain ⟨n, h1, h2⟩ := hm
  obtain ⟨n', g1, g2⟩ := hm'
  obtain ⟨rfl, _⟩ := h.shared_meant hc h' hw hw' hs h2 g2
  exact ⟨n, h1, g1⟩

theorem Settled.shared_field (hc : Coherent acc acc') (h : Settled env acc p) (h' : Settled env acc' q) (hw : WellNamed acc)
    (hw' : WellNamed acc') {i j : Nat} (hs : Shared acc acc' i j) {path : Path} {full : Name} {k k' n : Nat} {f : FieldP}
    (he : .field path full i k n f ∈ visit {} acc) (he' : .field path full j k' n f ∈ visit {} acc') {a b : MsgD}
    {x y : FieldD} (ha : p.messages[k]? = some a) (hb : q.messages[k']? = some b)
    (hx : a.fields[n]? = some x) (hy : b.fields[n]? = some y) : FieldAlike p q x y := by
  have D := h.desc
  have D' := h'.desc
  obtain ⟨_, fd, a', x', h1, ha', hx', _, h2⟩ := D.evs _ he
  rw [ha] at ha'; cases ha'
  rw [hx] at hx'; cases hx'
  obtain ⟨_, fd', b', y', g1, hb', hy', _, g2⟩ := D'.evs _ he'
  rw [hb] at hb'; cases hb'
  rw [hy] at hy'; cases hy'
  have hne := h.full_ne hw he rfl
  obtain ⟨_, _, c1, c2, c3⟩ := h.refs _ he
  rw [ha] at c1; cases c1
  rw [hx] at c2; cases c2
  obtain ⟨_, _, c1, c2, c3'⟩ := h'.refs _ he'
  rw [hb] at c1; cases c1
  rw [hy] at c2; cases c2
  obtain ⟨⟨ek, ee⟩, eg⟩ := h.shared_kinds hc h' hw hw' hs h2.kind g2.kind (c3 hne) (c3' hne)
  have es := (h.shared_trans hc h' hs h1 g1).1
  have eo : x.oneof = y.oneof := by
    have e0 : x.oneof.map Int.ofNat = y.oneof.map Int.ofNat := h2.oneof.trans g2.oneof.symm
    cases ho : x.oneof <;> cases ho' : y.oneof <;> rw [ho, ho'] at e0 <;> simp at e0 ⊢
    omega
  refine ⟨?_, ?_, h2.json.trans g2.json.symm, ek, eg, eo, ?_, ?_, h2.card.trans g2.card.symm,
    default_shared ek ee h2.default g2.default⟩
  · rw [h2.id, g2.id]; exact id_alike D D' hs _ _ _
  · have := h2.number.trans g2.number.symm; omega
  · rw [h2.packed, g2.packed, es]; simp only [isPacked, ek.packable]
  · rw [h2.presence, g2.presence, eg, es, ek.presence]

theorem Settled.shared_message (hc : Coherent acc acc') (h : Settled env acc p) (h' : Settled env acc' q) (hw : WellNamed acc)
    (hw' : WellNamed acc') {i j : Nat} (hs : Shared acc acc' i j) {k : Nat} {a : MsgD} (ha : p.messages[k]? = some a)
    (hi : a.id.file = i) :
    ∃ k' b, q.messages[k']? = some b ∧ lookupN q.names a.id.fullName = some ⟨b.id.file, b.id.path, .message k'⟩ ∧
      b.id.file = j ∧ MsgAlike p q a b := by
  have D := h.desc
  have D' := h'.desc
  obtain ⟨path, full, fi, parent, m, he, h1, h2, h3, h4, h5⟩ := D.message_at ha
  rw [h1] at hi
  obtain rfl : fi = i := hi
  obtain ⟨e', he', hx'⟩ := visit_shared hs he rfl
  cases e' <;> simp only [Event.item, Option.some.injEq, Prod.mk.injEq, reduceCtorEq, and_false] at hx'
  next path' full' fi' par' k' m' =>
  obtain ⟨rfl, rfl, rfl, hm⟩ := hx'
  cases hm
  obtain ⟨gn, ⟨b, hb, g1, g2, g3, g4, g5⟩, _⟩ := D'.evs _ he'
  have F := visit_full _ _ _ he
  have F' := visit_full _ _ _ he'
  have hf : ListAlike (FieldAlike p q) a.fields b.fields := by
    refine ⟨h3.trans g3.symm, fun n x y hx hy => ?_⟩
    obtain ⟨v, hv⟩ : ∃ v, m.fields[n]? = some v :=
      ⟨_, List.getElem?_eq_getElem (h3 ▸ getElem?_lt hx : n < m.fields.length)⟩
    exact h.shared_field hc h' hw hw' hs (F.1 n v hv) (F'.1 n v hv) ha hb hx hy
  refine ⟨k', b, hb, ?_, by rw [g1]; rfl, ?_, ?_, hf, ?_, ?_, ?_, ?_⟩
  · rw [h1, g1]; exact gn _ _ rfl
  · rw [h1, g1]; exact id_alike D D' hs _ _ _
  · rw [h2, g2]; exact parent_message D D' he he' rfl
  · refine ⟨h4.trans g4.symm, fun n x y hx hy => ?_⟩
    obtain ⟨v, hv⟩ : ∃ v, m.oneofs[n]? = some v :=
      ⟨_, List.getElem?_eq_getElem (h4 ▸ getElem?_lt hx : n < m.oneofs.length)⟩
    obtain ⟨_, _, _, k1, k2, k3⟩ := D.evs _ (F.2.1 n v hv)
    rw [ha] at k1; cases k1
    rw [hx] at k2; cases k2
    obtain ⟨_, _, _, k1, k2, k3'⟩ := D'.evs _ (F'.2.1 n v hv)
    rw [hb] at k1; cases k1
    rw [hy] at k2; cases k2
    obtain ⟨o1, o2⟩ := h5.oneofs n x hx
    obtain ⟨o3, o4⟩ := g5.oneofs n y hy
    refine ⟨by rw [k3, k3']; exact id_alike D D' hs _ _ _, asc_ext o1 o3 fun z => ?_⟩
    rw [o2, o4]
    constructor
    · rintro ⟨u, hu, hu'⟩
      have hv := List.getElem?_eq_getElem (hf.1 ▸ getElem?_lt hu : z < b.fields.length)
      exact ⟨_, hv, by rw [← (hf.2 z _ _ hu hv).oneof]; exact hu'⟩
    · rintro ⟨u, hu, hu'⟩
      have hv := List.getElem?_eq_getElem (hf.1 ▸ getElem?_lt hu : z < a.fields.length)
      exact ⟨_, hv, by rw [(hf.2 z _ _ hv hu).oneof]; exact hu'⟩
  · exact SMap.sorted_ext h5.sorted g5.sorted fun n =>
      congrFun (idx_alike h5.numbers g5.numbers (hf.imp fun x y h => h.number)) n
  · exact idx_alike h5.names g5.names (hf.imp fun x y h => h.id.name)
  · exact idx_alike h5.jsons g5.jsons (hf.imp fun x y h => h.json)

theorem Settled.shared_enum (h : Settled env acc p) (h' : Settled env acc' q) {i j : Nat}
    (hs : Shared acc acc' i j) {k : Nat} {a : EnumD} (ha : p.enums[k]? = some a) (hi : a.id.file = i) :
    ∃ k' b, q.enums[k']? = some b ∧ lookupN q.names a.id.fullName = some ⟨b.id.file, b.id.path, .enum k'⟩ ∧
      b.id.file = j ∧ EnumAlike p q a b := by
  have D := h.desc
  have D' := h'.desc
  obtain ⟨path, full, fi, parent, m, he, h1, _⟩ := D.enum_at ha
  rw [h1] at hi
  obtain rfl : fi = i := hi
  obtain ⟨e', he', hx'⟩ := visit_shared hs he rfl
  cases e' <;> simp only [Event.item, Option.some.injEq, Prod.mk.injEq, reduceCtorEq, and_false] at hx'
  next path' full' fi' par' k' m' =>
  obtain ⟨rfl, rfl, rfl, hm⟩ := hx'
  cases hm
  obtain ⟨gn, ⟨b, hb, g1, _⟩, _⟩ := D'.evs _ he'
  refine ⟨k', b, hb, ?_, by rw [g1]; rfl, enum_shared D D' hs he he' ha hb⟩
  rw [h1, g1]; exact gn _ _ rfl

theorem Settled.shared_extension (hc : Coherent acc acc') (h : Settled env acc p) (h' : Settled env acc' q) (hw : WellNamed acc)
    (hw' : WellNamed acc') {i j : Nat} (hs : Shared acc acc' i j) {k : Nat} {x : ExtD} (hx : p.extensions[k]? = some x)
    (hi : x.id.file = i) :
    ∃ k' y, q.extensions[k']? = some y ∧ lookupN q.names x.id.fullName = some ⟨y.id.file, y.id.path, .extension k'⟩ ∧
      y.id.file = j ∧ ExtAlike p q x y := by
  have D := h.desc
  have D' := h'.desc
  obtain ⟨path, full, fi, parent, f, fd, he, h1, _, h2⟩ := D.extension_at hx
  rw [h2.id] at hi
  obtain rfl : fi = i := hi
  obtain ⟨e', he', hx'⟩ := visit_shared hs he rfl
  cases e' <;> simp only [Event.item, Option.some.injEq, Prod.mk.injEq, reduceCtorEq, and_false] at hx'
  next path' full' fi' par' k' f' =>
  obtain ⟨rfl, rfl, rfl, hm⟩ := hx'
  cases hm
  obtain ⟨gn, fd', y, g1, hy, _, g2⟩ := D'.evs _ he'
  have hne := h.full_ne hw he rfl
  obtain ⟨_, c2, c3⟩ := h.refs _ he
  rw [hx] at c2; cases c2
  obtain ⟨_, c2, c3'⟩ := h'.refs _ he'
  rw [hy] at c2; cases c2
  obtain ⟨⟨ek, ee⟩, eg⟩ := h.shared_kinds hc h' hw hw' hs h2.kind g2.kind (c3 hne).2 (c3' hne).2
  have es := (h.shared_trans hc h' hs h1 g1).1
  refine ⟨k', y, hy, ?_, by rw [g2.id]; rfl, ?_, ?_, ?_, h2.json.trans g2.json.symm,
    h.shared_index hc h' hw hw' hs (c3 hne).1 (c3' hne).1, ek, eg, ?_, h2.card.trans g2.card.symm,
    default_shared ek ee h2.default g2.default⟩
  · rw [h2.id, g2.id]; exact gn _ _ rfl
  · rw [h2.id, g2.id]; exact id_alike D D' hs _ _ _
  · rw [h2.parent, g2.parent]; exact parent_extension D D' he he'
  · have := h2.number.trans g2.number.symm; omega
  · rw [h2.packed, g2.packed, es]; simp only [isPacked, ek.packable]

theorem Settled.shared_service (hc : Coherent acc acc') (h : Settled env acc p) (h' : Settled env acc' q) (hw : WellNamed acc)
    (hw' : WellNamed acc') {i j : Nat} (hs : Shared acc acc' i j) {k : Nat} {a : SvcD} (ha : p.services[k]? = some a)
    (hi : a.id.file = i) :
    ∃ k' b, q.services[k']? = some b ∧ lookupN q.names a.id.fullName = some ⟨b.id.file, b.id.path, .service k'⟩ ∧
      b.id.file = j ∧ SvcAlike p q a b := by
  have D := h.desc
  have D' := h'.desc
  obtain ⟨path, full, fi, s, he, h1, h2⟩ := D.service_at ha
  rw [h1] at hi
  obtain rfl : fi = i := hi
  obtain ⟨e', he', hx'⟩ := visit_shared hs he rfl
  cases e' <;> simp only [Event.item, Option.some.injEq, Prod.mk.injEq, reduceCtorEq, and_false] at hx'
  next path' full' fi' k' s' =>
  obtain ⟨rfl, rfl, rfl, hm⟩ := hx'
  cases hm
  obtain ⟨gn, b, hb, g1, g2⟩ := D'.evs _ he'
  have F := visit_full _ _ _ he
  have F' := visit_full _ _ _ he'
  refine ⟨k', b, hb, ?_, by rw [g1]; rfl, ?_, h2.trans g2.symm, fun n x y hx hy => ?_⟩
  · rw [h1, g1]; exact gn _ _ rfl
  · rw [h1, g1]; exact id_alike D D' hs _ _ _
  obtain ⟨v, hv⟩ : ∃ v, s.methods[n]? = some v :=
    ⟨_, List.getElem?_eq_getElem (h2 ▸ getElem?_lt hx : n < s.methods.length)⟩
  obtain ⟨_, _, _, k1, k2, k3, _⟩ := D.evs _ (F n v hv)
  rw [ha] at k1; cases k1
  rw [hx] at k2; cases k2
  obtain ⟨_, _, _, k1, k2, k3', _⟩ := D'.evs _ (F' n v hv)
  rw [hb] at k1; cases k1
  rw [hy] at k2; cases k2
  have hne := h.full_ne hw (F n v hv) rfl
  obtain ⟨_, _, c1, c2, c3⟩ := h.refs _ (F n v hv)
  rw [ha] at c1; cases c1
  rw [hx] at c2; cases c2
  obtain ⟨_, _, c1, c2, c3'⟩ := h'.refs _ (F' n v hv)
  rw [hb] at c1; cases c1
  rw [hy] at c2; cases c2
  exact ⟨by rw [k3, k3']; exact id_alike D D' hs _ _ _, h.shared_index hc h' hw hw' hs (c3 hne).1 (c3' hne).1,
    h.shared_index hc h' hw hw' hs (c3 hne).2 (c3' hne).2⟩

end
end Verif.Pool
