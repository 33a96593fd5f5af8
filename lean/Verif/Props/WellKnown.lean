import Verif.Reflect.Own
import Verif.Props.Derived
import Verif.Props.PoolShows
import Verif.Props.JsonWkt
import Verif.Dyn.Reenc
/-!
C89: the pool of well-known types and the types that have `ReflectMessage` built in.
C90: the well-known types of a pool that has Google's files.
C91: converting a well-known value to a dynamic message and back.
-/
set_option autoImplicit false
namespace Verif.Props
open Verif.Wire Verif.Dyn Verif.Pool Verif.Reflect Verif.Json Verif.Text

attribute [local irreducible] wktFiles builtin

/-! ### C89 -/

/-- **C89, the pool is made.** `make_wkt_descriptor_pool`, which the first use of the global pool unwraps,
returns a pool: none of the library's own files breaks a rule. -/
theorem C89_made_partial {env : Env} (hsr : SearchOk env.search) (hstack : 12 ≤ env.stack)
    (hopt : ∀ q, ∀ e ∈ visit {} wktFiles, env.optErr q e = .ok false) : ∃ q, makePool env = .ok (some q) := by
  obtain ⟨q, hq⟩ := wkt_accepted hsr hstack hopt
  exact ⟨q, makeFrom_iff.2 hq⟩

theorem made_accepts {env : Env} {q : Pool} (h : makePool env = .ok (some q)) : Accepts env wktFiles q :=
  accepts_first h

theorem serial_split {W : Global.World} {g g' : Global.Seq} {l : List (Global.Call × Global.Resp)}
    (h : Global.Serial W g l g') {c : Global.Call} {r : Global.Resp} (hm : (c, r) ∈ l) :
    ∃ l1 g1 g2, Global.Serial W g l1 g1 ∧ Global.Does W g1 c r g2 := by
  induction h with
  | nil => cases hm
  | snoc h0 h1 ih =>
    rcases List.mem_append.1 hm with hm | hm
    · exact ih hm
    · simp only [List.mem_cons, List.not_mem_nil, or_false, Prod.mk.injEq] at hm
      obtain ⟨rfl, rfl⟩ := hm
      exact ⟨_, _, _, h0, h1⟩

theorem does_pool {W : Global.World} {g g' : Global.Seq} {c : Global.Call} {q : Pool}
    (h : Global.Does W g c (.pool q) g') : c = .get := by
  cases h with
  | ret h =>
    have hb : ∀ p fs p', Global.build W p fs ≠ .ret p' (.pool q) := by
      intro p fs p' h
      unfold Global.build at h
      split at h <;> cases h
    cases c with
    | get => rfl
    | add f => exact absurd h (hb _ _ _)
    | decode b =>
      simp only [Global.exec] at h
      split at h
      · cases h
      · exact absurd h (hb _ _ _)

/-- Every copy of the global pool that a thread gets goes on from the first pool. -/
theorem copy_first {W : Global.World} (hsr : SearchOk W.env.search) {acc : List FileP} (hW : Hist W.env acc W.first)
    {p0 q : Pool} {es : List Global.Ev} {s : Global.St} (h : Global.Steps W (Global.start p0) es s) {t : Nat}
    (hr : .ret t (.pool q) ∈ es) : ∃ acc', Hist W.env acc' q ∧ acc <+: acc' ∧ Keeps W.first q := by
  obtain ⟨L, g, rfl, hT, hS⟩ := C84_linear h
  obtain ⟨e, he, hs⟩ := List.mem_filterMap.mp hr
  have : e = .ret t (.pool q) := by cases e <;> cases hs <;> rfl
  subst this
  obtain ⟨x, hx⟩ := hT t
  obtain ⟨c, hc⟩ := (turn_called hx).2.1 _ he
  obtain ⟨l1, g1, g2, k1, k2⟩ := serial_split hS (List.mem_filterMap.mpr ⟨_, hc, rfl⟩)
  obtain rfl := does_pool k2
  obtain ⟨rfl, rfl⟩ := does_get k2
  obtain ⟨acc', k3, k4, _⟩ := serial_hist k1 rfl hW
  exact ⟨acc', k3, k4, serial_keeps hsr k1 rfl hW⟩

/-- **C89, built-in types.** However many threads use the global pool, whatever they add to it and however
their calls are interleaved, `descriptor()` of each of the built-in types, given a copy of the global pool,
returns - it does not panic - and the message it returns has the full name written beside the type, is the
one declared in the library's own files, and is the same each time: the same index and, leaving extensions
aside, the same contents as in the first pool. -/
theorem C89_builtin {W : Global.World} (hsr : SearchOk W.env.search) (hW : makePool W.env = .ok (some W.first))
    {p0 q : Pool} {es : List Global.Ev} {s : Global.St} (h : Global.Steps W (Global.start p0) es s) {t : Nat}
    (hr : .ret t (.pool q) ∈ es) {ty : String} {n : Name} (hn : (ty, n) ∈ builtin) :
    ∃ (i : Nat) (d d0 : MsgD) (f : FileP) (sc : Name) (m : MsgP), descriptor q n = some i ∧ q.messages[i]? = some d ∧
      d.id.fullName = n ∧ wktFiles[d.id.file]? = some f ∧ Has f d.id.path sc (.message m) ∧ qualified sc m.name = n ∧
      W.first.messages[i]? = some d0 ∧ d0.forget = d.forget := by
  have hA := made_accepts hW
  obtain ⟨acc', H, ⟨more, rfl⟩, hk⟩ := copy_first hsr hA.hist h hr
  obtain ⟨f, path, sc, m, h1, h2, h3⟩ := builtin_declared hn
  obtain ⟨j, hj⟩ := List.getElem?_of_mem h1
  have hdot : (qualified sc m.name).head? ≠ some '.' := by rw [h3]; exact builtin_dot _ hn
  obtain ⟨i, d0, a1, a2, a3, a4, _, a6⟩ := C18_message_declared hsr hA.hist hj h2
  obtain ⟨i', d, b1, b2, b3, b4, _, b6⟩ := C18_message_declared hsr H (getElem?_append_of_some _ hj) h2
  obtain ⟨d', c1, c2⟩ := hk.messages _ _ a1
  have hfull : d'.id.fullName = d0.id.fullName := congrArg (fun x => x.id.fullName) c2
  have hi : i = i' := by
    have e1 := (C18_message hsr H n i).2 ⟨d', c1, by
      rw [hfull, a4, h3, stripDot_of_ne (builtin_dot _ hn)]⟩
    have e2 := b6 hdot
    rw [h3] at e2
    exact Option.some.inj (e1.symm.trans e2)
  subst hi
  rw [c1] at b1; cases b1
  have e2 := b6 hdot
  rw [h3] at e2 b4
  exact ⟨i, d, d0, f, sc, m, e2, c1, b4, by rw [b2]; exact hj, by rw [b3]; exact h2, h3, a1, c2.symm⟩

/-- The environment of the examples gives the pool. -/
theorem made_ex : ∃ q, makePool env0 = .ok (some q) :=
  C89_made_partial linearSearch_ok (by decide) fun _ _ _ => rfl

/-- Not vacuous: a program in which a thread asks for the pool while another one adds a file. -/
example : ∃ (W : Global.World) (es : List Global.Ev) (s : Global.St) (q : Pool), SearchOk W.env.search ∧
    makePool W.env = .ok (some W.first) ∧ Global.Steps W (Global.start Pool.empty) es s ∧ .ret 1 (.pool q) ∈ es ∧
    ("prost_types::Timestamp", "google.protobuf.Timestamp".toList) ∈ builtin := by
  obtain ⟨q, hq⟩ := made_ex
  have he : buildFiles env0 q [] = .ok ⟨q, []⟩ := by
    simp [buildFiles]
  obtain ⟨s, hs⟩ := two_threads ⟨env0, fun _ => some [], q⟩ (c := .decode []) (q := q) (by
    simp only [Global.exec, Global.build, he])
  exact ⟨_, _, s, q, linearSearch_ok, hq, hs, by simp, by decide +kernel⟩

/-! ### C90 -/

section
variable {env : Env} (hsr : SearchOk env.search) {acc : List FileP} {p : Pool}
include hsr

/-- **C90, well-known types.** In a pool that has the library's own files, whatever else it has, each message
type with the name of a well-known type is declared as the built-in type is: there is a way to number the
types involved that makes them agree in everything that matters to encoding, JSON and the text format. -/
theorem C90_like (hk : KeepsEntry env) (h : Accepts env acc p) (hw : ∀ f ∈ wktFiles, f ∈ acc) (hx : ExtendeesGiven acc)
    {S : Schema} (hS : p.view = .ok S) : StdLike S :=
  std_like hsr hk h hS (standard_of_files hsr h.hist hw) hx

omit hsr in
theorem _root_.Verif.Props.Shaped.given (hsh : Shaped acc p) : ExtendeesGiven acc :=
  fun j g path s x hj hx => (hsh.extension j g path s x hj hx).2

/-- **C90, JSON round trip.** Writing a conforming message of a type of such a pool as JSON and reading it back
gives a message that is alike; well-known types are written in their special forms.  `WktOk` as for
`C43_wkt_partial`. -/
theorem C90_json_partial (hk : KeepsEntry env) (h : Accepts env acc p) (hw : ∀ f ∈ wktFiles, f ∈ acc)
    (hsh : Shaped acc p) (hN : Named acc p) (hK : Keyed p) :
    ∃ S, p.view = .ok S ∧ ∀ (jenv : JEnv) (so : SOpts) (o : DOpts), (so.protoNames = true → Crossless p) →
      JFloatSpec jenv → JTimeSpec jenv → jenv.enumName = enumNameIn env p → ∀ m, confMsg S m = true →
      WktOk jenv S so m → keepSlots f32Ok (WktOk jenv S so) m.fields → ∀ k K, k ≤ K → ∀ j,
      toJson jenv S so k m = .ok j →
      ∃ m', fromJson jenv S o K m.desc j = .ok m' ∧ m'.desc = m.desc ∧ AlikeMsg S m m' ∧ confMsg S m' = true := by
  obtain ⟨S, hS⟩ := C68_total hsr h
  refine ⟨S, hS, fun jenv so o hx hf ht he m hm ho hp k K hkK j hj => ?_⟩
  exact C43_wkt_partial (C68_wf hsr h hS hsh) (C68_json hsr h hS hsh hN hK) (C90_like hsr hk h hw hsh.given hS)
    (fun h => C68_cross hS (hx h)) hf ht
    (fun ed v n hn => enumNameIn_mem hsr h.hist (by rw [← he]; exact hn)) o hm ho hp hkK hj

/-- **C90, parsing text.** As `C69_text_safe`, for a pool that has the library's own files. -/
theorem C90_text_safe (hk : KeepsEntry env) (h : Accepts env acc p) (hw : ∀ f ∈ wktFiles, f ∈ acc) (hsh : Shaped acc p) (hA : Apart p) :
    ∃ S, p.view = .ok S ∧ ∀ tenv, ParsesFloats tenv.parse64 → ∀ k (d : Nat) md, p.messages[d]? = some md →
      ∀ text : List Char, (∃ m, parseText tenv S k d text = .ok m ∧ confMsg S m = true ∧ m.desc = d) ∨
        (∃ e, parseText tenv S k d text = .error e ∧ e ≠ .panic ∧ e ≠ .fuel) := by
  refine C69_text_safe hsr h hsh hA fun md hmd hn f hf => ?_
  obtain ⟨S, hS⟩ := C68_total hsr h
  obtain ⟨d, hd⟩ := List.getElem?_of_mem hmd
  obtain ⟨m, hm, hV⟩ := (view_ok hS).2.2 d md hd
  obtain ⟨td, ht, hall⟩ : ∃ td, stdSchema.msg? 0 = some td ∧ td.name = "google.protobuf.Any".toList ∧
      ∀ g ∈ td.fields, g.card ≠ .repeated := ⟨_, rfl, by decide +kernel, by decide +kernel⟩
  obtain ⟨m', td', h1, h2, -, -, -, hsim⟩ := same_fields hsr hk h hS (standard_of_files hsr h.hist hw) hsh.given
    (d := d) (i := 0) ⟨m, td, hm, ht, hV.name.trans (hn.trans hall.1.symm)⟩
  rw [hm] at h1; cases h1
  rw [ht] at h2; cases h2
  obtain ⟨i, hi⟩ := List.getElem?_of_mem hf
  have hfi := congrArg (fun l => l[i]?) hV.fields
  simp only [List.getElem?_map, hi, Option.map_some] at hfi
  have hlt : i < td.fields.length := hsim.1 ▸ getElem?_lt hfi
  have hg := List.getElem?_eq_getElem hlt
  have := (hsim.2 i _ _ hfi hg).card
  intro hc
  exact hall.2 _ (List.mem_of_getElem? hg) (this.symm.trans hc)

/-- **C90, the library's own pool.** The pool that has the library's own files and nothing else meets every
condition that the theorems about pools ask for. -/
theorem C90_own (hk : KeepsEntry env) (h : Accepts env wktFiles p) :
    Shaped wktFiles p ∧ Named wktFiles p ∧ Keyed p ∧ Crossless p ∧ Apart p ∧
    ∃ S, p.view = .ok S ∧ S.wf = true ∧ jsonWf S = true ∧ namesApart S = true ∧ extsApart S = true ∧ StdLike S := by
  have h1 := own_shaped hsr hk h.hist
  have h2 := own_named hsr hk h.hist
  have h3 := own_keyed hsr hk h.hist
  have h4 := own_crossless hsr hk h.hist
  have h5 := own_apart hsr h.hist
  obtain ⟨S, hS⟩ := C68_total hsr h
  exact ⟨h1, h2, h3, h4, h5, S, hS, C68_wf hsr h hS h1, C68_json hsr h hS h1 h2 h3, C68_cross hS h4,
    C68_apart hsr h hS h5, C90_like hsr hk h (fun _ hf => hf) h1.given hS⟩

/-! ### C91 -/

omit hsr in
/-- **C91, to a dynamic message and back.** `transcode_to_dynamic` of a value of a well-known type that nests
within the decoder's limit returns - its `expect` holds - a message of the type `descriptor()` gives, which
conforms to it and is encoded as the value is.  `transcode_to` gives back a value with the same content. -/
theorem C91_roundtrip {S : Schema} (hS : S.wf = true) (hL : StdLike S) {d : Nat} {md : MsgDesc} {w : Wkt} {fs : FieldSet}
    (hmd : S.msg? d = some md) (hw : wkt? md.name = some w) (hc : confMsg stdSchema ⟨w.std, fs⟩ = true)
    (hdep : levelsSlots fs ≤ recursionLimit) {b : Bytes} (hb : encMsg stdSchema ⟨w.std, fs⟩ = some b)
    (hsz : b.length < 2 ^ 64) :
    ∃ m fs', makeMsg S d w fs = .ok m ∧ m.desc = d ∧ confMsg S m = true ∧ encMsg S m = some b ∧
      transcodeTo S w m = .ok fs' ∧ SameMsg stdSchema ⟨w.std, fs⟩ ⟨w.std, fs'⟩ ∧
      AlikeMsg stdSchema ⟨w.std, fs⟩ ⟨w.std, fs'⟩ := by
  obtain ⟨ρ, σ, I, J, hρ, hσ, hI, hd, hJ, hback⟩ := hL d md w hmd hw
  have hdep0 : depthSlots fs ≤ recursionLimit := Nat.le_trans (depthSlots_levels _) hdep
  have hb2 := (encMsg_ren hσ (m := ⟨w.std, fs⟩) hJ hc).trans hb
  have hc2 := confMsg_ren hσ (m := ⟨w.std, fs⟩) hJ hc
  obtain ⟨hdec, hc3⟩ := decode_encMsg hS hc2 (by simpa only [depthMsg, renMsg, depthSlots_ren] using hdep0) hb2 hsz
  have hdesc : (renMsg σ ⟨w.std, fs⟩).desc = d := by
    show σ w.std = d
    rw [← hd]; exact hback _ hI
  rw [hdesc] at hdec
  obtain ⟨hdec', hc4⟩ := decode_encMsg stdSchema_wf hc hdep0 hb hsz
  have hl : levelsSlots (canonMsg stdSchema ⟨w.std, fs⟩).fields ≤ recursionLimit := by
    have hc' := hc
    simp only [confMsg, Bool.and_eq_true] at hc'
    exact Nat.le_trans (levelsSlots_canon std_mapsPresent _ _ hc'.2) hdep
  have he := (encMsg_canon hS hc2).trans hb2
  refine ⟨canonMsg S (renMsg σ ⟨w.std, fs⟩), (canonMsg stdSchema ⟨w.std, fs⟩).fields, ?_, hdesc, hc3, he, ?_, sameMsg_canon stdSchema_wf hc,
    alikeMsg_canon stdSchema_wf std_mapsPresent hc⟩
  · simp only [makeMsg, hb, hdec]
    rfl
  · simp only [transcodeTo, he, hdec', ofDecode, if_pos hl]

omit hsr in
/-- **C91, the limit.** Without the bound on nesting: `transcode_from` succeeds exactly if the value nests at
most 100 levels.  Otherwise it is an error, and the `expect` in `transcode_to_dynamic` panics. -/
theorem C91_limit {S : Schema} (hS : S.wf = true) (hL : StdLike S) {d : Nat} {md : MsgDesc} {w : Wkt} {fs : FieldSet}
    (hmd : S.msg? d = some md) (hw : wkt? md.name = some w) (hc : confMsg stdSchema ⟨w.std, fs⟩ = true)
    {b : Bytes} (hb : encMsg stdSchema ⟨w.std, fs⟩ = some b) (hsz : b.length < 2 ^ 64) :
    (depthMsg ⟨w.std, fs⟩ ≤ 100 → ∃ m, makeMsg S d w fs = .ok m) ∧
    (100 < depthMsg ⟨w.std, fs⟩ → makeMsg S d w fs = .error .err) := by
  obtain ⟨ρ, σ, I, J, hρ, hσ, hI, hd, hJ, hback⟩ := hL d md w hmd hw
  have hb2 := (encMsg_ren hσ (m := ⟨w.std, fs⟩) hJ hc).trans hb
  have hc2 := confMsg_ren hσ (m := ⟨w.std, fs⟩) hJ hc
  have hdesc : (renMsg σ ⟨w.std, fs⟩).desc = d := by
    show σ w.std = d
    rw [← hd]; exact hback _ hI
  have hdep : depthMsg (renMsg σ ⟨w.std, fs⟩) = depthMsg ⟨w.std, fs⟩ := by
    simp only [depthMsg, renMsg, depthSlots_ren]
  obtain ⟨h1, h2⟩ := C08_limit hS hc2 hb2 hsz
  rw [hdep, hdesc] at h1 h2
  refine ⟨fun h => ?_, fun h => ?_⟩
  · obtain ⟨m, hm⟩ := h1 h
    exact ⟨m, by simp only [makeMsg, hb, hm, ofDecode]⟩
  · simp only [makeMsg, hb, h2 h, ofDecode]

omit hsr in
theorem wkt_builtin : ∀ w ∈ Wkt.all, ∃ r ∈ builtin, r.2 = w.name := by decide +kernel

omit hsr in
theorem wkt_own : ∀ w ∈ Wkt.all, wkt? w.name = some w := by decide +kernel

/-- The well-known types are found. -/
theorem wkt_found (h : Accepts env acc p) (hw : ∀ f ∈ wktFiles, f ∈ acc) {S : Schema} (hS : p.view = .ok S) (w : Wkt) :
    ∃ d md, descriptor p w.name = some d ∧ S.msg? d = some md ∧ wkt? md.name = some w := by
  obtain ⟨⟨ty, n⟩, hr, hn⟩ := wkt_builtin w (wkt_mem w)
  cases hn
  obtain ⟨f, path, sc, m, h1, h2, h3⟩ := builtin_declared hr
  obtain ⟨j, hj⟩ := List.getElem?_of_mem (hw f h1)
  obtain ⟨i, d, a1, _, _, a4, _, a6⟩ := C18_message_declared hsr h.hist hj h2
  have e2 := a6 (by rw [h3]; exact builtin_dot _ hr)
  rw [h3] at e2 a4
  obtain ⟨md, hmd, hV⟩ := (view_ok hS).2.2 i d a1
  exact ⟨i, md, e2, hmd, by rw [hV.name, a4]; exact wkt_own w (wkt_mem w)⟩

/-- **C91, in a pool.** `descriptor()` of a built-in type is found in every pool that has the library's own
files, and converting to it and back works. -/
theorem C91_pool (hk : KeepsEntry env) (h : Accepts env acc p) (hw : ∀ f ∈ wktFiles, f ∈ acc) (hsh : Shaped acc p) :
    ∃ S, p.view = .ok S ∧ ∀ (w : Wkt) (fs : FieldSet) (b : Bytes), confMsg stdSchema ⟨w.std, fs⟩ = true →
      levelsSlots fs ≤ recursionLimit → encMsg stdSchema ⟨w.std, fs⟩ = some b → b.length < 2 ^ 64 →
      ∃ d m fs', descriptor p w.name = some d ∧ makeMsg S d w fs = .ok m ∧ m.desc = d ∧ confMsg S m = true ∧
        encMsg S m = some b ∧ transcodeTo S w m = .ok fs' ∧ SameMsg stdSchema ⟨w.std, fs⟩ ⟨w.std, fs'⟩ := by
  obtain ⟨S, hS⟩ := C68_total hsr h
  refine ⟨S, hS, fun w fs b hc hdep hb hsz => ?_⟩
  obtain ⟨i, md, e2, hmd, hw'⟩ := wkt_found hsr h hw hS w
  obtain ⟨m', fs', g1, g2, g3, g4, g5, g6, _⟩ := C91_roundtrip (C68_wf hsr h hS hsh)
    (C90_like hsr hk h hw hsh.given hS) hmd hw' hc hdep hb hsz
  exact ⟨i, m', fs', e2, g1, g2, g3, g4, g5, g6⟩

end

/-! ### The hypotheses can be met -/

theorem env0_keeps : KeepsEntry env0 := by
  intro p path full file parent k m o ho
  show m.options.join = o
  rw [ho]; rfl

/-- A pool with a view as C90 and C91 want it. -/
theorem own_ex : ∃ p S, Accepts env0 wktFiles p ∧ p.view = .ok S ∧ S.wf = true ∧ jsonWf S = true ∧ StdLike S ∧
    Shaped wktFiles p ∧ Named wktFiles p ∧ Keyed p ∧ Crossless p ∧ Apart p := by
  obtain ⟨q, hq⟩ := made_ex
  obtain ⟨h1, h2, h3, h4, h5, S, hS, h6, h7, _, _, h8⟩ := C90_own linearSearch_ok env0_keeps (made_accepts hq)
  exact ⟨q, S, made_accepts hq, hS, h6, h7, h8, h1, h2, h3, h4, h5⟩

def timeEx : FieldSet := [(1, .val (.i64 5)), (2, .val (.i32 7))]

theorem time_conf {S : Schema} (hL : StdLike S) {d : Nat} {md : MsgDesc} (hmd : S.msg? d = some md)
    (hw : wkt? md.name = some .timestamp) : confMsg S ⟨d, timeEx⟩ = true ∧ encMsg S ⟨d, timeEx⟩ = some [8, 5, 16, 7] := by
  obtain ⟨ρ, σ, I, J, hρ, hσ, hI, hd, hJ, hback⟩ := hL d md _ hmd hw
  have hc : confMsg stdSchema ⟨Wkt.timestamp.std, timeEx⟩ = true := by decide +kernel
  have hb : encMsg stdSchema ⟨Wkt.timestamp.std, timeEx⟩ = some [8, 5, 16, 7] := by decide +kernel
  have hm : renMsg σ ⟨Wkt.timestamp.std, timeEx⟩ = ⟨d, timeEx⟩ := by
    have : σ Wkt.timestamp.std = d := by rw [← hd]; exact hback _ hI
    simp only [renMsg, timeEx, renSlots, renVal, this]
  rw [← hm]
  exact ⟨confMsg_ren hσ (m := ⟨_, _⟩) hJ hc, (encMsg_ren hσ (m := ⟨_, _⟩) hJ hc).trans hb⟩

/-- Not vacuous: a `Timestamp` in the library's own pool is as `C90_json_partial` wants it. -/
example : ∃ p S jenv m j, Accepts env0 wktFiles p ∧ p.view = .ok S ∧ JFloatSpec jenv ∧ JTimeSpec jenv ∧
    jenv.enumName = enumNameIn env0 p ∧ confMsg S m = true ∧ WktOk jenv S .default m ∧
    keepSlots f32Ok (WktOk jenv S .default) m.fields ∧ toJson jenv S .default 9 m = .ok j := by
  obtain ⟨p, S, hA, hS, hwf, _, hL, hsh, _⟩ := own_ex
  obtain ⟨i, md, e2, hmd, hw⟩ := wkt_found linearSearch_ok hA (fun _ hf => hf) hS .timestamp
  obtain ⟨hc, hb⟩ := time_conf hL hmd hw
  let jenv : JEnv := { wToy with enumName := enumNameIn env0 p }
  have hT : JTimeSpec jenv := ⟨wToy_times.time, wToy_times.dur⟩
  have hF : JFloatSpec jenv := ⟨jToy_floats.fin32, nofun, nofun, nofun, nofun, nofun, nofun⟩
  have ht : transcodeTo S .timestamp ⟨i, timeEx⟩ = .ok timeEx := by
    have : transcodeTo stdSchema .timestamp ⟨1, timeEx⟩ = .ok timeEx := by decide +kernel
    simp only [transcodeTo, hb]
    have hb' : encMsg stdSchema ⟨1, timeEx⟩ = some [8, 5, 16, 7] := by decide +kernel
    simpa only [transcodeTo, hb'] using this
  refine ⟨p, S, jenv, ⟨i, timeEx⟩, .str (wToy.showTime 5 7), hA, hS, hF, hT, rfl, hc, ?_, ?_, ?_⟩
  · refine wktOk_of (w := .timestamp) (J := .str (wToy.showTime 5 7)) (G := secNanos (5, 7)) hmd hw (by show levelsSlots timeEx ≤ _; decide +kernel) hb
      (by decide) ht ⟨by decide, by decide⟩ (fun k j h => by cases h; rfl) (fun K gs h => ?_) (std_size (by decide +kernel))
    obtain ⟨h1, h3⟩ := hT.time 5 7 (by decide +kernel) (by decide) (by decide)
    have h2 : deStd jenv K (.str (jenv.showTime 5 7)) .timestamp = .ok (secNanos (5, 7)) := by
      simp only [deStd, h1, h3, if_true]
      rfl
    have h4 : jenv.showTime 5 7 = wToy.showTime 5 7 := rfl
    rw [h4] at h2
    rw [h2] at h
    cases h; rfl
  · simp only [timeEx, keepSlots, keepVal]; trivial
  · simp only [toJson, serMsg, hmd, hw, ht]
    rfl

/-- Lists in lists. -/
def deepList : Nat → FieldSet
  | 0 => [(2, .val (.f64 0))]
  | n + 1 => [(6, .val (.msg 6 [(1, .val (.list [.msg 5 (deepList n)]))]))]

def deepOk (n : Nat) : Bool := confMsg stdSchema ⟨5, deepList n⟩ &&
  match encMsg stdSchema ⟨5, deepList n⟩ with
  | some b => decide (b.length < 2 ^ 64)
  | none => false

theorem deepOk_iff {n : Nat} (h : deepOk n = true) : confMsg stdSchema ⟨5, deepList n⟩ = true ∧
    ∃ b, encMsg stdSchema ⟨5, deepList n⟩ = some b ∧ b.length < 2 ^ 64 := by
  simp only [deepOk, Bool.and_eq_true] at h
  refine ⟨h.1, ?_⟩
  have := h.2
  split at this
  · next b hb => exact ⟨b, hb, of_decide_eq_true this⟩
  · cases this

/-- Not vacuous: three lists in a `Value`. -/
example : ∃ b, confMsg stdSchema ⟨Wkt.value.std, deepList 3⟩ = true ∧ levelsSlots (deepList 3) ≤ recursionLimit ∧
    encMsg stdSchema ⟨Wkt.value.std, deepList 3⟩ = some b ∧ b.length < 2 ^ 64 := by
  obtain ⟨h1, b, h2, h3⟩ := deepOk_iff (n := 3) (by decide +kernel)
  exact ⟨b, h1, by decide +kernel, h2, h3⟩

/-- **C91 is false for deep values**: 51 lists in a `Value` make `transcode_to_dynamic` panic, in the library's own
pool, although the descriptor is the right one. -/
theorem C91_false : ∃ p S d md, Accepts env0 wktFiles p ∧ p.view = .ok S ∧ descriptor p Wkt.value.name = some d ∧
    S.msg? d = some md ∧ wkt? md.name = some .value ∧ confMsg stdSchema ⟨Wkt.value.std, deepList 51⟩ = true ∧
    makeMsg S d .value (deepList 51) = .error .err := by
  obtain ⟨p, S, hA, hS, hwf, _, hL, hsh, _⟩ := own_ex
  obtain ⟨i, md, e2, hmd, hw⟩ := wkt_found linearSearch_ok hA (fun _ hf => hf) hS .value
  obtain ⟨c1, b, c2, c3⟩ := deepOk_iff (n := 51) (by decide +kernel)
  exact ⟨p, S, i, md, hA, hS, e2, hmd, hw, c1, (C91_limit hwf hL hmd hw c1 c2 c3).2 (by decide +kernel)⟩

end Verif.Props
