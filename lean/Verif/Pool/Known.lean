import Verif.Pool.Spec
/-!
From indices back to declarations: every descriptor of a pool stems from one declaration
of the accepted files.
-/
set_option autoImplicit false
namespace Verif.Pool
open Verif.Wire Verif.Dyn

section
variable {env : Env} {acc : List FileP} {p : Pool}

/-- The counters at the end of the traversal of all accepted files. -/
theorem Desc.counted (h : Desc env acc p) : ∃ c : Cnt,
    Cnt.run {} (Cnt.start {}) (visit {} acc) = some c ∧ c.file = p.files.length ∧
    c.message = p.messages.length ∧ c.enum = p.enums.length ∧ c.service = p.services.length ∧
    c.extension = p.extensions.length := by
  obtain ⟨c, hc, ha⟩ := run_start {} acc
  rw [← h.offs] at ha
  exact ⟨c, hc, ha.file, ha.message, ha.enum, ha.service, ha.extension⟩

theorem Desc.message_at (h : Desc env acc p) {k : Nat} {md : MsgD}
    (hk : p.messages[k]? = some md) : ∃ path full fi parent m,
      .message path full fi parent k m ∈ visit {} acc ∧ md.id = Ident.mk' fi path full m.name ∧
      md.parent = parent ∧ md.fields.length = m.fields.length ∧
      md.oneofs.length = m.oneofs.length ∧ MsgOk md := by
  obtain ⟨c, hc, h1, h2, h3, h4, h5⟩ := h.counted
  have hlt := getElem?_lt hk
  obtain ⟨e, he, hs⟩ := (tally_message {}).ex hc (i := k) (Nat.zero_le _) (by omega)
  cases e <;> simp only [selMessage, reduceCtorEq, Option.some.injEq] at hs
  subst hs
  obtain ⟨_, ⟨md', g1, g2⟩, _⟩ := h.evs _ he
  rw [hk] at g1; cases g1
  exact ⟨_, _, _, _, _, he, g2⟩

theorem Desc.enum_at (h : Desc env acc p) {k : Nat} {ed : EnumD}
    (hk : p.enums[k]? = some ed) : ∃ path full fi parent e,
      .enum path full fi parent k e ∈ visit {} acc ∧ ed.id = Ident.mk' fi path full e.name ∧
      ed.parent = parent ∧ ed.allowAlias = e.allowAlias ∧ ed.values.length = e.values.length ∧
      EnumOk ed ed.values.length := by
  obtain ⟨c, hc, h1, h2, h3, h4, h5⟩ := h.counted
  have hlt := getElem?_lt hk
  obtain ⟨e, he, hs⟩ := (tally_enum {}).ex hc (i := k) (Nat.zero_le _) (by omega)
  cases e <;> simp only [selEnum, reduceCtorEq, Option.some.injEq] at hs
  subst hs
  obtain ⟨_, ⟨md', g1, g2⟩, _⟩ := h.evs _ he
  rw [hk] at g1; cases g1
  exact ⟨_, _, _, _, _, he, g2⟩

theorem Desc.service_at (h : Desc env acc p) {k : Nat} {sd : SvcD}
    (hk : p.services[k]? = some sd) : ∃ path full fi s,
      .service path full fi k s ∈ visit {} acc ∧ sd.id = Ident.mk' fi path full s.name ∧
      sd.methods.length = s.methods.length := by
  obtain ⟨c, hc, h1, h2, h3, h4, h5⟩ := h.counted
  have hlt := getElem?_lt hk
  obtain ⟨e, he, hs⟩ := (tally_service {}).ex hc (i := k) (Nat.zero_le _) (by omega)
  cases e <;> simp only [selService, reduceCtorEq, Option.some.injEq] at hs
  subst hs
  obtain ⟨_, md', g1, g2⟩ := h.evs _ he
  rw [hk] at g1; cases g1
  exact ⟨_, _, _, _, he, g2⟩

theorem Desc.extension_at (h : Desc env acc p) {k : Nat} {d : ExtD}
    (hk : p.extensions[k]? = some d) : ∃ path full fi parent f fd,
      .extension path full fi parent k f ∈ visit {} acc ∧ p.files[fi]? = some fd ∧
      NumberOkIn p d.extendee f ∧ ExtIs env p fd.syn fi path full parent f d := by
  obtain ⟨c, hc, h1, h2, h3, h4, h5⟩ := h.counted
  have hlt := getElem?_lt hk
  obtain ⟨e, he, hs⟩ := (tally_ext {}).ex hc (i := k) (Nat.zero_le _) (by omega)
  cases e <;> simp only [selExt, reduceCtorEq, Option.some.injEq] at hs
  subst hs
  obtain ⟨_, fd, d', g1, g2, g3, g4⟩ := h.evs _ he
  rw [hk] at g2; cases g2
  exact ⟨_, _, _, _, _, fd, he, g1, g3, g4⟩

theorem Desc.field_at (h : Desc env acc p) {k i : Nat} {md : MsgD} {d : FieldD}
    (hk : p.messages[k]? = some md) (hi : md.fields[i]? = some d) : ∃ path full fi f fd,
      .field path full fi k i f ∈ visit {} acc ∧ p.files[fi]? = some fd ∧
      NumberOkIn p k f ∧ FieldIs env p fd.syn fi path full f md.oneofs.length d := by
  obtain ⟨path, full, fi, parent, m, he, _, _, hl, _⟩ := h.message_at hk
  have hlt := getElem?_lt hi
  have hv := (visit_full acc {} _ he).1 i _ (List.getElem?_eq_getElem (by omega))
  obtain ⟨_, fd, md', d', g1, g2, g3, g4, g5⟩ := h.evs _ hv
  rw [hk] at g2; cases g2
  rw [hi] at g3; cases g3
  exact ⟨_, _, _, _, fd, hv, g1, g4, g5⟩

theorem Desc.oneof_at (h : Desc env acc p) {k i : Nat} {md : MsgD} {d : OneofD}
    (hk : p.messages[k]? = some md) (hi : md.oneofs[i]? = some d) : ∃ path full fi o,
      .oneof path full fi k i o ∈ visit {} acc ∧ d.id = Ident.mk' fi path full o.name := by
  obtain ⟨path, full, fi, parent, m, he, _, _, _, hl, _⟩ := h.message_at hk
  have hlt := getElem?_lt hi
  have hv := (visit_full acc {} _ he).2.1 i _ (List.getElem?_eq_getElem (by omega))
  obtain ⟨_, md', d', g2, g3, g4⟩ := h.evs _ hv
  rw [hk] at g2; cases g2
  rw [hi] at g3; cases g3
  exact ⟨_, _, _, _, hv, g4⟩

theorem Desc.value_at (h : Desc env acc p) {k i : Nat} {ed : EnumD} {d : ValueD}
    (hk : p.enums[k]? = some ed) (hi : ed.values[i]? = some d) : ∃ path full fi v fd ep,
      .enumValue path full fi k i v ∈ visit {} acc ∧
      d = { id := Ident.mk' fi path full v.name, number := v.number } ∧
      p.files[ed.id.file]? = some fd ∧ findEnum fd.raw ed.id.path = some ep ∧
      (∀ r ∈ ep.reserved, ¬ (r.1 ≤ v.number ∧ v.number ≤ r.2)) := by
  obtain ⟨path, full, fi, parent, m, he, _, _, _, hl, _⟩ := h.enum_at hk
  have hlt := getElem?_lt hi
  obtain ⟨s, _, hf⟩ := visit_full acc {} _ he
  have hv := hf i _ (List.getElem?_eq_getElem (by omega))
  obtain ⟨_, md', fd, ep, g2, g3, g4, g5, g6⟩ := h.evs _ hv
  rw [hk] at g2; cases g2
  rw [hi] at g3; cases g3
  exact ⟨_, _, _, _, fd, ep, hv, rfl, g4, g5, g6⟩

theorem Desc.method_at (h : Desc env acc p) {k i : Nat} {sd : SvcD} {d : MethodD}
    (hk : p.services[k]? = some sd) (hi : sd.methods[i]? = some d) : ∃ path full fi m,
      .method path full fi k i m ∈ visit {} acc ∧ d.id = Ident.mk' fi path full m.name ∧
      d.input < p.messages.length ∧ d.output < p.messages.length := by
  obtain ⟨path, full, fi, m, he, _, hl⟩ := h.service_at hk
  have hlt := getElem?_lt hi
  have hv := visit_full acc {} _ he i _ (List.getElem?_eq_getElem (by omega))
  obtain ⟨_, md', d', g2, g3, g4⟩ := h.evs _ hv
  rw [hk] at g2; cases g2
  rw [hi] at g3; cases g3
  exact ⟨_, _, _, _, hv, g4⟩

theorem Desc.file_at (h : Desc env acc p) {i : Nat} {f : FileP} (hf : acc[i]? = some f) :
    ∃ fd, p.files[i]? = some fd ∧ parseSyn f.syn = some fd.syn ∧
      stripFile fd.raw = stripFile f ∧ fd.prost = fd.raw ∧
      f.deps.map (lookupN p.fileNames) = fd.deps.map some ∧
      (∀ j ∈ f.publicDeps, 0 ≤ j ∧ j < f.deps.length) ∧
      lookupN p.fileNames f.name = some i := by
  have hv := visit_files acc {} i f hf
  rw [show ({} : Offs).file + i = i by show 0 + i = i; omega] at hv
  obtain ⟨_, ⟨fd, h1, h2, h3, h4, h5, h6, h7⟩, h8, h9⟩ := h.evs _ hv
  exact ⟨fd, h1, h2, h3, h4, h5, h6, h8⟩

theorem Desc.files_len (h : Desc env acc p) : p.files.length = acc.length := by
  have : p.offs.file = p.files.length := rfl
  rw [← this, h.offs, offsAfter_file]
  show 0 + _ = _
  omega

theorem Desc.file_inv (h : Desc env acc p) {i : Nat} {fd : FileD} (hf : p.files[i]? = some fd) :
    ∃ f, acc[i]? = some f ∧ parseSyn f.syn = some fd.syn ∧ stripFile fd.raw = stripFile f ∧
      fd.prost = fd.raw ∧ lookupN p.fileNames f.name = some i := by
  have hlt := getElem?_lt hf
  rw [h.files_len] at hlt
  obtain ⟨fd', h1, h2, h3, h4, _, _, h5⟩ := h.file_at (List.getElem?_eq_getElem hlt)
  rw [hf] at h1; cases h1
  exact ⟨_, List.getElem?_eq_getElem hlt, h2, h3, h4, h5⟩

/-! Name look-ups. -/

theorem Desc.message_name (h : Desc env acc p) (n : Name) (k : Nat) :
    (∃ fi path, lookupN p.names n = some ⟨fi, path, .message k⟩) ↔
      ∃ md, p.messages[k]? = some md ∧ md.id.fullName = n := by
  constructor
  · rintro ⟨fi, path, hl⟩
    rcases h.names _ (lookupN_mem hl) with ⟨e, he, hd⟩ | ⟨hk, _⟩
    · cases e <;> simp only [Event.defn, Option.some.injEq, Prod.mk.injEq, Def.mk.injEq, reduceCtorEq,
        and_false, DefKind.message.injEq] at hd
      obtain ⟨rfl, rfl, rfl, rfl⟩ := hd
      obtain ⟨_, ⟨md, g1, g2, _⟩, _⟩ := h.evs _ he
      exact ⟨md, g1, by rw [g2]; rfl⟩
    · cases hk
  · rintro ⟨md, hk, rfl⟩
    obtain ⟨path, full, fi, parent, m, he, hid, _⟩ := h.message_at hk
    exact ⟨fi, path, by rw [hid]; exact (h.evs _ he).1 _ _ rfl⟩

theorem Desc.enum_name (h : Desc env acc p) (n : Name) (k : Nat) :
    (∃ fi path, lookupN p.names n = some ⟨fi, path, .enum k⟩) ↔
      ∃ md, p.enums[k]? = some md ∧ md.id.fullName = n := by
  constructor
  · rintro ⟨fi, path, hl⟩
    rcases h.names _ (lookupN_mem hl) with ⟨e, he, hd⟩ | ⟨hk, _⟩
    · cases e <;> simp only [Event.defn, Option.some.injEq, Prod.mk.injEq, Def.mk.injEq, reduceCtorEq,
        and_false, DefKind.enum.injEq] at hd
      obtain ⟨rfl, rfl, rfl, rfl⟩ := hd
      obtain ⟨_, ⟨md, g1, g2, _⟩, _⟩ := h.evs _ he
      exact ⟨md, g1, by rw [g2]; rfl⟩
    · cases hk
  · rintro ⟨md, hk, rfl⟩
    obtain ⟨path, full, fi, parent, m, he, hid, _⟩ := h.enum_at hk
    exact ⟨fi, path, by rw [hid]; exact (h.evs _ he).1 _ _ rfl⟩

theorem Desc.service_name (h : Desc env acc p) (n : Name) (k : Nat) :
    (∃ fi path, lookupN p.names n = some ⟨fi, path, .service k⟩) ↔
      ∃ md, p.services[k]? = some md ∧ md.id.fullName = n := by
  constructor
  · rintro ⟨fi, path, hl⟩
    rcases h.names _ (lookupN_mem hl) with ⟨e, he, hd⟩ | ⟨hk, _⟩
    · cases e <;> simp only [Event.defn, Option.some.injEq, Prod.mk.injEq, Def.mk.injEq, reduceCtorEq,
        and_false, DefKind.service.injEq] at hd
      obtain ⟨rfl, rfl, rfl, rfl⟩ := hd
      obtain ⟨_, md, g1, g2, _⟩ := h.evs _ he
      exact ⟨md, g1, by rw [g2]; rfl⟩
    · cases hk
  · rintro ⟨md, hk, rfl⟩
    obtain ⟨path, full, fi, m, he, hid, _⟩ := h.service_at hk
    exact ⟨fi, path, by rw [hid]; exact (h.evs _ he).1 _ _ rfl⟩

theorem Desc.extension_name (h : Desc env acc p) (n : Name) (k : Nat) :
    (∃ fi path, lookupN p.names n = some ⟨fi, path, .extension k⟩) ↔
      ∃ md, p.extensions[k]? = some md ∧ md.id.fullName = n := by
  constructor
  · rintro ⟨fi, path, hl⟩
    rcases h.names _ (lookupN_mem hl) with ⟨e, he, hd⟩ | ⟨hk, _⟩
    · cases e <;> simp only [Event.defn, Option.some.injEq, Prod.mk.injEq, Def.mk.injEq, reduceCtorEq,
        and_false, DefKind.extension.injEq] at hd
      obtain ⟨rfl, rfl, rfl, rfl⟩ := hd
      obtain ⟨_, fd, md, _, g1, _, g2⟩ := h.evs _ he
      exact ⟨md, g1, by rw [g2.id]; rfl⟩
    · cases hk
  · rintro ⟨md, hk, rfl⟩
    obtain ⟨path, full, fi, parent, f, fd, he, _, _, hx⟩ := h.extension_at hk
    exact ⟨fi, path, by rw [hx.id]; exact (h.evs _ he).1 _ _ rfl⟩

theorem Desc.file_name (h : Desc env acc p) (n : Name) (i : Nat) :
    lookupN p.fileNames n = some i ↔ ∃ fd, p.files[i]? = some fd ∧ fd.prost.name = n := by
  constructor
  · intro hl
    obtain ⟨f, hf, hn⟩ := h.fileNames _ (lookupN_mem hl)
    simp only at hf hn
    obtain ⟨fd, h1, _, h3, h4, _⟩ := h.file_at hf
    refine ⟨fd, h1, ?_⟩
    rw [h4, ← hn]
    have := congrArg FileP.name h3
    simpa only [stripFile] using this
  · rintro ⟨fd, h1, rfl⟩
    obtain ⟨f, hf, _, h3, h4, h5⟩ := h.file_inv h1
    rw [h4]
    have := congrArg FileP.name h3
    simp only [stripFile] at this
    rw [this]; exact h5

/-- A declaration has its name to itself. -/
theorem Desc.unique (h : Desc env acc p) {e e' : Event} (he : e ∈ visit {} acc)
    (he' : e' ∈ visit {} acc) {n : Name} {d d' : Def} (hd : e.defn = some (n, d))
    (hd' : e'.defn = some (n, d')) : d = d' := by
  have h1 := (h.evs _ he).1 _ _ hd
  have h2 := (h.evs _ he').1 _ _ hd'
  rw [h1] at h2
  exact Option.some.inj h2

end
end Verif.Pool
