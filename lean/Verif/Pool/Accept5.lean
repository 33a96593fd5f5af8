import Verif.Pool.Accept4
import Verif.Pool.Exts
import Verif.Pool.Hist
/-!
Accepted files are valid.
-/
set_option autoImplicit false
namespace Verif.Pool
open Verif.Wire Verif.Dyn

/-! Names are declared once. -/

theorem NamesEff.full_new {p q : Pool} {e : Event} (h : NamesEff p e q) {n : Name}
    (hn : e.full = some n) : lookupN p.names n = none := by
  cases e <;> simp only [Event.full, Option.some.injEq, reduceCtorEq] at hn <;> subst hn <;> exact h.1

theorem nodup_concat {α : Type} {l : List α} {a : α} (h : l.Nodup) (ha : a ∉ l) : (l ++ [a]).Nodup := by
  rw [List.nodup_append]
  refine ⟨h, by simp, ?_⟩
  rintro x hx y hy rfl
  rw [List.mem_singleton] at hy
  subst hy
  exact ha hx

theorem names_pass_nodup {p : Pool} {fs : List FileP} {st : St}
    (h : runPass namesStep ⟨p, []⟩ (visit p.offs fs) = .ok st) (he : st.errors = []) :
    (fs.flatMap fileDecls).Nodup ∧ ∀ n ∈ fs.flatMap fileDecls, lookupN p.names n = none := by
  obtain ⟨c, hc, _⟩ := run_start p.offs fs
  have := pass_inv (o := p.offs) (fun pre c st => st.errors = [] →
    Names1 p pre c st.pool ∧ (pre.filterMap Event.full).Nodup ∧
      ∀ n ∈ pre.filterMap Event.full, lookupN p.names n = none) ?_ _ [] _ _ _ _ hc ?_ h
  · obtain ⟨_, h1, h2⟩ := this he
    rw [List.nil_append, visit_full_names] at h1 h2
    exact ⟨h1, h2⟩
  · intro pre c st e c' st' hcs hI hs he
    obtain ⟨e0, eff⟩ := names_eff hs he
    obtain ⟨hN, h1, h2⟩ := hI e0
    refine ⟨hN.step eff hcs, ?_⟩
    rw [List.filterMap_append]
    cases hf : e.full with
    | none =>
      simp only [List.filterMap_cons, hf, List.filterMap_nil, List.append_nil]
      exact ⟨h1, h2⟩
    | some n =>
      have hnew := eff.full_new hf
      simp only [List.filterMap_cons, hf, List.filterMap_nil]
      refine ⟨nodup_concat h1 ?_, ?_⟩
      · intro hm
        obtain ⟨x, hx, hxn⟩ := List.mem_filterMap.1 hm
        rw [Event.full_defn, Option.map_eq_some_iff] at hxn
        obtain ⟨⟨n', d⟩, hd, rfl⟩ := hxn
        have := (hN.evs _ hx).1 _ _ hd
        rw [hnew] at this; cases this
      · intro m hm
        rcases List.mem_append.1 hm with hm | hm
        · exact h2 m hm
        · rw [List.mem_singleton] at hm
          subst hm
          obtain ⟨l, g1, _⟩ := hN.src.names
          rw [g1] at hnew
          cases hl : lookupN p.names m with
          | none => rfl
          | some d => rw [lookupN_append_some l hl] at hnew; cases hnew
  · intro _
    exact ⟨names1_start p, by simp, by simp⟩

/-- Over any history, no full name is declared twice. -/
theorem Hist.nodup {env : Env} (hsr : SearchOk env.search) {acc : List FileP} {p : Pool}
    (h : Hist env acc p) : (acc.flatMap fileDecls).Nodup := by
  induction h with
  | empty => exact List.nodup_nil
  | accept acc p fs q h hb ih =>
    have hD := h.desc hsr
    unfold buildFiles at hb
    simp only at hb
    split at hb
    · next h0 => rw [h0, List.append_nil]; exact ih
    · split at hb
      · cases hb
      · next b hb' =>
        split at hb
        · next hne =>
          simp only [Except.ok.injEq, Built.mk.injEq] at hb
          exact absurd hb.2 hne
        · simp only [Except.ok.injEq] at hb
          have out := buildDeduped_outcome hb'
          have hbe : b.errors = [] := by rw [hb]
          cases out with
          | names st h1 h2 => exact absurd hbe h2
          | resolve st st' h1 h2 h3 h4 => exact absurd hbe h4
          | options st st' errs h1 h2 h3 h4 h5 => exact absurd hbe h5
          | done st st' st'' h1 h2 h3 h4 h5 =>
            obtain ⟨g1, g2⟩ := names_pass_nodup h1 h2
            rw [List.flatMap_append, List.nodup_append]
            refine ⟨ih, g1, ?_⟩
            rintro a ha b hb rfl
            obtain ⟨e, he, d, hd⟩ := (mem_decls (o := {})).1 ha
            have := (hD.evs _ he).1 _ _ hd
            rw [g2 _ hb] at this; cases this
  | reject acc p fs q e es _ _ ih => exact ih

theorem parseSyn_some {s : Option Name} {y : Syn} (h : parseSyn s = some y) :
    (s = none ∨ s = some "proto2".toList ∨ s = some "proto3".toList) ∧
    (s = some "proto3".toList → y = .proto3) := by
  unfold parseSyn at h
  split at h
  · next h1 =>
    refine ⟨h1.elim .inl fun h => .inr (.inl h), fun h3 => ?_⟩
    rcases h1 with h1 | h1
    · rw [h1] at h3; cases h3
    · rw [h1] at h3; exact absurd h3 (by decide)
  · split at h
    · next h2 => cases h; exact ⟨.inr (.inr h2), fun _ => rfl⟩
    · cases h

section
variable {env : Env} {acc fs : List FileP} {p q : Pool}

/-- What the references of file `i` are looked up in. -/
def seen (acc fs : List FileP) (q : Pool) (i j : Nat) : Prop :=
  (acc.length ≤ i ∧ i < (acc ++ fs).length ∧ ∃ fd, q.files[i]? = some fd ∧ j ∈ fd.trans) ∨
  (¬ (acc.length ≤ i ∧ i < (acc ++ fs).length) ∧ NearlyVisible (acc ++ fs) i j)

theorem desc_offset (h : Desc env acc p) : p.offs.file = acc.length := by
  rw [h.offs, offsAfter_file]
  show 0 + _ = _
  omega

/-- The declarations of `fs` are in the pool, with what they refer to. -/
structure Made (env : Env) (o : Offs) (fs : List FileP) (q : Pool) : Prop where
  decl : ∀ e ∈ visit o fs, Declared env q e
  resolved : ∀ e ∈ visit o fs, Ev2 env q q.files.length e

theorem Added.made (h : Added env p fs q) : Made env p.offs fs q := ⟨h.decl, h.resolved⟩

/-- The descriptor of a new file. -/
theorem new_file (h : Desc env acc p) (A : Made env p.offs fs q) (D : Desc env (acc ++ fs) q) {i : Nat}
    {f : FileP} (hf : fs[i]? = some f) : ∃ fd, q.files[acc.length + i]? = some fd ∧
      (∀ j ∈ fd.trans, Visible (acc ++ fs) (acc.length + i) j) ∧
      (∀ j, NearlyVisible (acc ++ fs) (acc.length + i) j → j ∈ fd.trans) ∧
      seen acc fs q (acc.length + i) = (· ∈ fd.trans) := by
  have hv := visit_files fs p.offs _ _ hf
  rw [desc_offset h] at hv
  obtain ⟨fd, g1, _, g2, g3, _⟩ := A.resolved _ hv
  have hall : (acc ++ fs)[acc.length + i]? = some f := by
    rw [List.getElem?_append_right (by omega), Nat.add_sub_cancel_left]; exact hf
  obtain ⟨t1, t2⟩ := D.trans_of hall g2 g3
  refine ⟨fd, g1, t1, t2, ?_⟩
  funext j
  have hlt := getElem?_lt hall
  simp only [seen, eq_iff_iff]
  constructor
  · rintro (⟨_, _, fd', h1, h2⟩ | ⟨h1, _⟩)
    · rw [g1] at h1; cases h1; exact h2
    · exact absurd ⟨by omega, hlt⟩ h1
  · exact fun hj => .inl ⟨by omega, hlt, fd, g1, hj⟩

theorem seen_between (h : Desc env acc p) (A : Made env p.offs fs q) (D : Desc env (acc ++ fs) q) :
    Between (acc ++ fs) (seen acc fs q) := by
  intro i j
  by_cases hi : acc.length ≤ i ∧ i < (acc ++ fs).length
  · have hlt : i - acc.length < fs.length := by
      have := hi.2
      rw [List.length_append] at this
      omega
    obtain ⟨fd, _, h1, h2, h3⟩ := new_file h A D (List.getElem?_eq_getElem hlt)
    rw [show acc.length + (i - acc.length) = i by omega] at h1 h2 h3
    rw [h3]
    exact ⟨h2 j, h1 j⟩
  · simp only [seen, hi, not_false_eq_true, true_and]
    exact ⟨.inr, fun h => h.elim (fun h => absurd ⟨h.1, h.2.1⟩ hi) NearlyVisible.visible⟩

/-- References of the accepted files, back from the tables. -/
theorem type_valid (D : Desc env acc q) {deps : List Nat} {scope : Name} {f : FieldP} {k : Kind} {g : Bool}
    (hs : scope ≠ []) (ht : TypeOk deps q.names scope f k g) {v : Option Value}
    (hd : DefaultOk env q.enums k f.default v) :
    TypeValid acc (· ∈ deps) scope f ∧ DefaultValid env acc (· ∈ deps) scope f := by
  cases ht with
  | scalar k h0 hk =>
    refine ⟨⟨fun _ => by rw [hk]; simp, fun h => absurd h0 h⟩, fun s hsd => ⟨fun _ => ?_, fun h => absurd h0 h⟩⟩
    rw [hsd] at hd
    obtain ⟨w, _, hw⟩ := hd
    rw [scalar_default hk] at hw
    exact ⟨k, w, hk, hw⟩
  | message n d t h0 hr hk =>
    refine ⟨⟨fun h => absurd h h0, fun _ => ⟨n, (D.resolve_iff (enums := true) hs).1 ⟨d, hr⟩⟩⟩, ?_⟩
    intro s hsd
    rw [hsd] at hd
    obtain ⟨w, _, hw⟩ := hd
    simp [defaultOf] at hw
  | enum n d t h0 hr hk =>
    have hre := (D.resolve_iff (enums := true) hs).1 ⟨d, hr⟩
    refine ⟨⟨fun h => absurd h h0, fun _ => ⟨n, hre⟩⟩, fun s hsd => ⟨fun h => absurd h h0, fun _ => ?_⟩⟩
    rw [hsd] at hd
    obtain ⟨w, _, hw⟩ := hd
    simp only [defaultOf] at hw
    split at hw
    · cases hw
    · next ed hed =>
      simp only [Except.ok.injEq, Option.map_eq_some_iff] at hw
      obtain ⟨x, hx, _⟩ := hw
      have hxm := List.mem_of_find?_eq_some hx
      have hxn := List.find?_some hx
      simp only [beq_iff_eq] at hxn
      have hl := (resolveName_found hr).1
      obtain ⟨ed', h1, h2⟩ := (D.enum_name n t).1 ⟨d.file, d.path, by rw [hl, ← hk]⟩
      rw [hed] at h1; cases h1
      obtain ⟨e, ⟨f', _, s', g1, _, g2, _, _, g3, _⟩, _, _, hlen, _, hv⟩ := D.values_of hed
      rw [h2] at g3
      refine ⟨n, ed.id.file, e, hre, ⟨f', _, s', g1, g2, g3⟩, ?_⟩
      obtain ⟨i, hi⟩ := List.getElem?_of_mem hxm
      have hlt := getElem?_lt hi
      rw [hlen] at hlt
      obtain ⟨⟨d', h3, h4, _⟩, _⟩ := hv i _ (List.getElem?_eq_getElem hlt)
      rw [hi] at h3; cases h3
      exact ⟨_, List.getElem_mem hlt, h4.symm.trans hxn⟩

theorem message_valid (D : Desc env acc q) {deps : List Nat} {scope name : Name} {k : Nat}
    (hs : scope ≠ []) (h : MessageOk deps q.names scope name k) :
    ∃ n md, Refers acc (· ∈ deps) false scope name n ∧ q.messages[k]? = some md ∧ md.id.fullName = n := by
  obtain ⟨n, d, hr, hk⟩ := h
  obtain ⟨md, h1, h2⟩ := (D.message_name n k).1 ⟨d.file, d.path, by rw [(resolveName_found hr).1, ← hk]⟩
  exact ⟨n, md, (D.resolve_iff (enums := false) hs).1 ⟨d, hr⟩, h1, h2⟩

theorem packages_of (D : Desc env acc q) : ∀ n ∈ acc.flatMap fileDecls, ∀ f ∈ acc,
    (n ≠ [] → f.package ≠ n) ∧ ∀ r, f.package ≠ n ++ '.' :: r := by
  intro n hn f hf
  obtain ⟨e, he, d, hd⟩ := (mem_decls (o := {})).1 hn
  have hl := (D.evs _ he).1 _ _ hd
  have hk : d.kind ≠ .package := by
    cases e <;> simp only [Event.defn, Option.some.injEq, Prod.mk.injEq, reduceCtorEq] at hd <;>
      (rw [← hd.2]; simp)
  obtain ⟨i, hi⟩ := List.getElem?_of_mem hf
  have hv := visit_files acc {} _ _ hi
  obtain ⟨_, _, _, hp⟩ := D.evs _ hv
  have hno : n ∉ packageNames f.package := by
    intro hm
    obtain ⟨d', h1, h2⟩ := hp n hm
    rw [hl] at h1; cases h1
    exact hk h2
  constructor
  · rintro h0 rfl
    exact hno (mem_packageNames.2 ⟨h0, .inl rfl⟩)
  · intro r hr
    exact hno (mem_packageNames.2 ⟨by rw [hr]; simp, .inr ⟨r, hr⟩⟩)

theorem valid_nil (D : Desc env acc q) (hnd : (acc.flatMap fileDecls).Nodup) {vis : Nat → Nat → Prop} :
    Valid env acc [] vis := by
  refine ⟨by simp, by simp, by simpa using hnd, ?_, by simp, by simp, by simp, by simp, by simp, by simp,
    by simp, by simp⟩
  rw [List.append_nil]
  exact packages_of D

/-- Accepted files are valid. -/
theorem added_valid (h : Desc env acc p) (A : Made env p.offs fs q) (D : Desc env (acc ++ fs) q)
    (hnd : ((acc ++ fs).flatMap fileDecls).Nodup) (hne : [] ∉ fs.flatMap fileDecls) :
    Valid env acc fs (seen acc fs q) := by
  have hol := desc_offset h
  have hall : ∀ x ∈ visit p.offs fs, x ∈ visit {} (acc ++ fs) := fun x hx => by
    rw [visit_append, ← h.offs]; exact List.mem_append_right _ hx
  have hat : ∀ {i : Nat} {f : FileP}, fs[i]? = some f → (acc ++ fs)[acc.length + i]? = some f := by
    intro i f hf
    rw [List.getElem?_append_right (by omega), Nat.add_sub_cancel_left]; exact hf
  have hfile : ∀ {i : Nat} {f : FileP}, fs[i]? = some f →
      Declared env q (.file [] (acc.length + i) f) := by
    intro i f hf
    have hv := visit_files fs p.offs _ _ hf
    rw [hol] at hv
    exact A.decl _ hv
  have hnn : ∀ {i : Nat} {f : FileP} {path s x}, fs[i]? = some f → Has f path s x →
      qualified s x.name ≠ [] := by
    intro i f path s x hf hx h0
    refine hne (List.mem_flatMap.2 ⟨f, List.mem_of_getElem? hf, mem_fileDecls.2 ⟨path, s, x, hx, h0.symm⟩⟩)
  have hsyn : ∀ {i : Nat} {f : FileP} {fd : FileD}, fs[i]? = some f →
      q.files[acc.length + i]? = some fd → f.syn = some "proto3".toList → fd.syn = .proto3 := by
    intro i f fd hf hfd hs
    obtain ⟨_, ⟨fd', h1, h2, _⟩, _⟩ := hfile hf
    rw [hfd] at h1; cases h1
    exact (parseSyn_some h2).2 hs
  refine ⟨?_, ?_, hnd, ?_, ?_, ?_, ?_, ?_, ?_, ?_, ?_, ?_⟩
  · intro f hf
    obtain ⟨i, hi⟩ := List.getElem?_of_mem hf
    obtain ⟨_, ⟨fd, _, h2, _⟩, _⟩ := hfile hi
    exact (parseSyn_some h2).1
  · refine nodup_map_of_inj fun i j a b hi hj heq => ?_
    obtain ⟨_, _, h1, _⟩ := hfile hi
    obtain ⟨_, _, h2, _⟩ := hfile hj
    rw [heq, h2] at h1
    simp only [Option.some.injEq] at h1
    omega
  · exact packages_of D
  · intro f hf h3 path s m hm
    obtain ⟨i, hi⟩ := List.getElem?_of_mem hf
    obtain ⟨e, he, hx⟩ := has_visited (o := p.offs) hi hm
    rw [hol] at hx
    cases e <;> simp only [Event.item, Option.some.injEq, Prod.mk.injEq, reduceCtorEq, and_false,
      Item.message.injEq] at hx
    obtain ⟨rfl, rfl, rfl, rfl⟩ := hx
    obtain ⟨_, _, fd, h1, h2⟩ := A.decl _ he
    exact h2 (hsyn hi h1 h3)
  · intro f hf path s en hm
    obtain ⟨i, hi⟩ := List.getElem?_of_mem hf
    obtain ⟨e, he, hx⟩ := has_visited (o := p.offs) hi hm
    rw [hol] at hx
    cases e <;> simp only [Event.item, Option.some.injEq, Prod.mk.injEq, reduceCtorEq, and_false,
      Item.enum.injEq] at hx
    obtain ⟨rfl, rfl, rfl, rfl⟩ := hx
    obtain ⟨_, _, fd, h1, v, r, h2, h3⟩ := A.decl _ he
    exact ⟨v, r, h2, fun h => h3 (hsyn hi h1 h)⟩
  · intro f hf n hn
    obtain ⟨i, hi⟩ := List.getElem?_of_mem hf
    obtain ⟨_, ⟨fd, _, _, _, _, hdeps, _⟩, _⟩ := hfile hi
    have hm : lookupN q.fileNames n ∈ f.deps.map (lookupN q.fileNames) := List.mem_map.2 ⟨n, hn, rfl⟩
    rw [hdeps] at hm
    obtain ⟨j, _, hj⟩ := List.mem_map.1 hm
    obtain ⟨g, h1, h2⟩ := D.filesAre.name_iff.1 hj.symm
    exact ⟨g, List.mem_of_getElem? h1, h2⟩
  · intro f hf j hj
    obtain ⟨i, hi⟩ := List.getElem?_of_mem hf
    obtain ⟨_, ⟨fd, _, _, _, _, _, h1, h2⟩, _⟩ := hfile hi
    exact hj.elim (h1 j) (h2 j)
  · intro i f hf path s m hm
    obtain ⟨fd, hfd, _, _, hseen⟩ := new_file h A D hf
    rw [hseen]
    obtain ⟨e, he, hx⟩ := has_visited (o := p.offs) hf hm
    rw [hol] at hx
    cases e <;> simp only [Event.item, Option.some.injEq, Prod.mk.injEq, reduceCtorEq, and_false,
      Item.message.injEq] at hx
    next path' full fi parent k m' =>
    obtain ⟨rfl, rfl, rfl, rfl⟩ := hx
    obtain ⟨_, ⟨md, hk, hid, _, _, hol', hok⟩, _⟩ := A.decl _ he
    have hfield : ∀ (j : Nat) x, m'.fields[j]? = some x → ∃ d, md.fields[j]? = some d ∧ NumberOk m' x ∧
        FieldMade env fd.syn fd.trans q.names q.enums (acc.length + i) (path' ++ [Tag.msgField, j])
          (qualified (qualified s m'.name) x.name) x md.oneofs.length d := by
      intro j x hj
      have hv := (visit_full fs p.offs _ he).1 j _ hj
      obtain ⟨fd', md', d, g1, _, g2, g3, g4, g5⟩ := A.resolved _ hv
      rw [hk] at g2; cases g2
      rw [hfd] at g1; cases g1
      obtain ⟨md', x', y, k1, ⟨g', _, s', k2, _, k3, _⟩, k5⟩ := D.number_ok g4
      rw [hk] at k1; cases k1
      rw [hid] at k2 k3
      have k2 : (acc ++ fs)[acc.length + i]? = some g' := k2
      rw [hat hf] at k2; cases k2
      have := hm.found.unique k3.found rfl
      cases this
      rw [← qualified_eq] at g5
      exact ⟨d, g3, k5, g5⟩
    refine ⟨?_, ?_, ?_⟩
    · intro x hx
      obtain ⟨j, hj⟩ := List.getElem?_of_mem hx
      obtain ⟨d, _, h2, h3⟩ := hfield j x hj
      obtain ⟨t1, t2⟩ := type_valid D (hnn hf (Has.field _ _ _ _ _ hm hj)) h3.kind h3.default
      refine ⟨h2, t1, t2, ?_⟩
      intro o ho
      have := h3.oneof
      rw [ho, Option.map_eq_some_iff] at this
      obtain ⟨n, hn, rfl⟩ := this
      have := h3.oneofLt n hn
      rw [hol'] at this
      exact ⟨Int.natCast_nonneg n, by simp only [Int.ofNat_eq_natCast]; omega⟩
    · refine nodup_map_of_inj fun a b x y ha hb heq => ?_
      obtain ⟨d, d1, _, d2⟩ := hfield a x ha
      obtain ⟨d', d1', _, d2'⟩ := hfield b y hb
      have h1 := d2.number
      have h2 := d2'.number
      exact hok.numbers.inj d1 d1' (by show d.number = d'.number; omega)
    · refine nodup_map_of_inj fun a b x y ha hb heq => ?_
      obtain ⟨d, d1, _, d2⟩ := hfield a x ha
      obtain ⟨d', d1', _, d2'⟩ := hfield b y hb
      have h1 := d2.json
      have h2 := d2'.json
      exact hok.jsons.inj d1 d1' (by rw [h1, h2, heq])
  · intro f hf path s en hm
    obtain ⟨i, hi⟩ := List.getElem?_of_mem hf
    obtain ⟨e, he, hx⟩ := has_visited (o := p.offs) hi hm
    rw [hol] at hx
    cases e <;> simp only [Event.item, Option.some.injEq, Prod.mk.injEq, reduceCtorEq, and_false,
      Item.enum.injEq] at hx
    obtain ⟨rfl, rfl, rfl, rfl⟩ := hx
    obtain ⟨_, ⟨ed, h1, hid, _⟩, _⟩ := A.decl _ he
    obtain ⟨x, ⟨f', _, s', g1, _, g2, _⟩, hal, hok, hlen, _, hv⟩ := D.values_of h1
    rw [hid] at g1 g2
    have g1 : (acc ++ fs)[acc.length + i]? = some f' := g1
    rw [hat hi] at g1; cases g1
    have := hm.found.unique g2.found rfl
    cases this
    refine ⟨fun v hvm => ?_, fun ha => ?_⟩
    · obtain ⟨j, hj⟩ := List.getElem?_of_mem hvm
      exact (hv j v hj).2
    · have hs := hok.strict (hal.trans ha)
      have hnum : ∀ (j : Nat) (v : EnumValueP), _ → (v.number, j) ∈ ed.valueNumbers := fun j v hj => by
        rw [hok.numbers, List.take_length]
        obtain ⟨⟨d', hd', _, h2⟩, _⟩ := hv j v hj
        exact ⟨d', hd', h2⟩
      refine nodup_map_of_inj fun i j a b hi hj heq => ?_
      obtain ⟨c, hc⟩ := List.getElem?_of_mem (hnum i a hi)
      obtain ⟨d, hd⟩ := List.getElem?_of_mem (hnum j b hj)
      rcases Nat.lt_trichotomy c d with hlt | heq' | hgt
      · have := pairwise_get hs hlt hc hd
        simp only at this; omega
      · subst heq'
        rw [hc] at hd
        simp only [Option.some.injEq, Prod.mk.injEq] at hd
        exact hd.2
      · have := pairwise_get hs hgt hd hc
        simp only at this; omega
  · intro i f hf path s x hm
    obtain ⟨fd, hfd, _, _, hseen⟩ := new_file h A D hf
    rw [hseen]
    obtain ⟨e, he, hx⟩ := has_visited (o := p.offs) hf hm
    rw [hol] at hx
    cases e <;> simp only [Event.item, Option.some.injEq, Prod.mk.injEq, reduceCtorEq, and_false,
      Item.extension.injEq] at hx
    obtain ⟨rfl, rfl, rfl, rfl⟩ := hx
    obtain ⟨fd', d, g1, _, _, g3, g4⟩ := A.resolved _ he
    rw [hfd] at g1; cases g1
    have hs := hnn hf hm
    obtain ⟨t1, t2⟩ := type_valid D hs g4.kind g4.default
    refine ⟨?_, t1, t2⟩
    obtain ⟨n, md, h1, h2, h3⟩ := message_valid D hs g4.extendee
    obtain ⟨md', x', y, k1, ⟨g', _, s', k2, _, k3, _, _, k4, _⟩, k5⟩ := D.number_ok g3
    rw [h2] at k1; cases k1
    exact ⟨n, _, x', h1, ⟨g', _, s', k2, k3, by rw [← h3]; exact k4⟩, k5⟩
  · intro i f hf path s x hm
    obtain ⟨fd, hfd, _, _, hseen⟩ := new_file h A D hf
    rw [hseen]
    obtain ⟨e, he, hx⟩ := has_visited (o := p.offs) hf hm
    rw [hol] at hx
    cases e <;> simp only [Event.item, Option.some.injEq, Prod.mk.injEq, reduceCtorEq, and_false,
      Item.method.injEq] at hx
    obtain ⟨rfl, rfl, rfl, rfl⟩ := hx
    obtain ⟨fd', sd, d, g1, _, _, _, _, g3, g4⟩ := A.resolved _ he
    rw [hfd] at g1; cases g1
    have hs := hnn hf hm
    obtain ⟨n, _, h1, _⟩ := message_valid D hs g3
    obtain ⟨n', _, h2, _⟩ := message_valid D hs g4
    exact ⟨⟨n, h1⟩, n', h2⟩

end

end Verif.Pool
