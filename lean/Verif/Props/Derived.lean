import Verif.Derive.Ends
import Verif.Props.GlobalPool
/-!
C86: `descriptor()` of derived types that carry their own `file_descriptor_set_bytes`.
-/
set_option autoImplicit false
namespace Verif.Props
open Verif.Wire Verif.Dyn Verif.Pool
open Verif.Pool.Global (World Call Resp Seq Serial Does exec)
open Verif.Derive (Ty Out Ev Got Failed)

variable {W : World} {T : Nat → Ty} {p0 : Pool} {es : List Ev} {s : Derive.St}

/-! ### Pools grow -/

theorem _root_.Verif.Pool.Keeps.refl (p : Pool) : Keeps p p :=
  ⟨fun _ _ h => h, fun _ _ h => h, fun _ _ h => h, fun _ m h => ⟨m, h, rfl⟩, fun _ _ h => h, fun _ _ h => h, fun _ _ h => h⟩

theorem _root_.Verif.Pool.Keeps.trans {p q r : Pool} (h : Keeps p q) (h' : Keeps q r) : Keeps p r where
  names n d e := h'.names n d (h.names n d e)
  fileNames n d e := h'.fileNames n d (h.fileNames n d e)
  files i f e := h'.files i f (h.files i f e)
  messages i m e := by
    obtain ⟨m1, h1, h2⟩ := h.messages i m e
    obtain ⟨m2, h3, h4⟩ := h'.messages i m1 h1
    exact ⟨m2, h3, h4.trans h2⟩
  enums i f e := h'.enums i f (h.enums i f e)
  services i f e := h'.services i f (h.services i f e)
  extensions i f e := h'.extensions i f (h.extensions i f e)

theorem build_keeps (hsr : SearchOk W.env.search) {acc : List FileP} {p : Pool} (hH : Hist W.env acc p) {fs : List FileP}
    {b : Built} (hb : buildFiles W.env p fs = .ok b) : Keeps p b.pool := by
  obtain ⟨q, errs⟩ := b
  cases errs with
  | nil =>
    rcases buildFiles_accept hsr (hH.desc hsr).ok hb with ⟨_, rfl⟩ | ha
    · exact .refl _
    · exact ha.frame.keeps
  | cons e es =>
    obtain ⟨r, _, _, hl⟩ := buildFiles_reject (hH.desc hsr).ok hb
    exact hl.keeps

theorem does_keeps (hsr : SearchOk W.env.search) {g g' : Seq} {c : Call} {r : Resp} {acc : List FileP} (h : Does W g c r g')
    (hg : g'.poisoned = false) (hH : Hist W.env acc g.pool) : Keeps g.pool g'.pool := by
  cases h with
  | @ret p p' c r h =>
    have hb : ∀ fs, Global.build W p fs = .ret p' r → Keeps p p' := by
      intro fs h
      unfold Global.build at h
      split at h
      · next b hb => cases h; exact build_keeps hsr hH hb
      · cases h
      · cases h
    cases c with
    | get => cases h; exact .refl _
    | add f => exact hb _ h
    | decode b =>
      simp only [exec] at h
      split at h
      · cases h; exact .refl _
      · exact hb _ h
  | panic => cases hg
  | refuse => cases hg

theorem serial_keeps (hsr : SearchOk W.env.search) {g g' : Seq} {l : List (Call × Resp)} (h : Serial W g l g')
    (hg : g'.poisoned = false) {acc : List FileP} (hH : Hist W.env acc g.pool) : Keeps g.pool g'.pool := by
  induction h with
  | nil => exact .refl _
  | snoc h0 h1 ih =>
    have hc := does_clean h1 hg
    obtain ⟨acc1, h2, _⟩ := serial_hist h0 hc hH
    exact (ih hc).trans (does_keeps hsr h1 hg h2)

/-- Of two copies of the global pool one goes on from the other. -/
theorem copies_keep (hsr : SearchOk W.env.search) {acc : List FileP} (hW : Hist W.env acc W.first) {G : List Global.Ev}
    {g : Global.St} (h : Global.Steps W (Global.start p0) G g) {b b' : Bytes} {p q : Pool} (hp : Got b p G) (hq : Got b' q G) :
    Keeps p q ∨ Keeps q p := by
  obtain ⟨L, z, e, hT, hS⟩ := C84_linear h
  have mem : ∀ {b : Bytes} {p : Pool}, Got b p G → (Call.get, Resp.pool p) ∈ L.filterMap Global.Lev.effect := by
    intro b p hp
    obtain ⟨a, t0, m, d, t, e1, f, hG, _, he⟩ := hp
    have hG' := (show L.filterMap Global.Lev.seen = G from e).trans hG
    obtain ⟨l1, l2, l3, rfl, _⟩ := Global.cut (a := a ++ .call t0 (.decode b) :: (m ++ .ret t0 (.done []) :: d)) (b := e1) (d := f)
      (t := t) (c := .get) (r := .pool p) (hT t) (by rw [hG']; simp) he
    simp [List.filterMap_append, Global.Lev.effect]
  have two : ∀ (p q : Pool) (l1 l2 l3 : List (Call × Resp)),
      L.filterMap Global.Lev.effect = l1 ++ (Call.get, Resp.pool p) :: (l2 ++ (Call.get, Resp.pool q) :: l3) → Keeps p q := by
    intro p q l1 l2 l3 hl
    rw [hl] at hS
    obtain ⟨g1, g2, k1, k2, k3⟩ := hS.mid
    obtain ⟨g3, g4, k4, k5, _⟩ := k3.mid
    obtain ⟨rfl, rfl⟩ := does_get k2
    obtain ⟨rfl, rfl⟩ := does_get k5
    obtain ⟨acc1, H, _⟩ := serial_hist k1 rfl hW
    exact serial_keeps hsr k4 rfl H
  obtain ⟨l1, l2, hl⟩ := List.append_of_mem (mem hp)
  have h2 := mem hq
  rw [hl, List.mem_append, List.mem_cons] at h2
  rcases h2 with h2 | h2 | h2
  · obtain ⟨l3, l4, rfl⟩ := List.append_of_mem h2
    exact .inr (two q p l3 l4 l2 (by rw [hl]; simp))
  · cases h2; exact .inl (.refl _)
  · obtain ⟨l3, l4, rfl⟩ := List.append_of_mem h2
    exact .inl (two p q l1 l3 l4 hl)

/-! ### C86 -/

/-- **C86.** Whatever other threads do, what `descriptor()` of a type returns is a message that has the
name given in the derive attribute, in a pool that has every file of the type's own file descriptor set,
besides those the global pool begins with. -/
theorem C86_found (hsr : SearchOk W.env.search) {acc : List FileP} (hW : Hist W.env acc W.first)
    (h : Derive.Steps W T (Derive.start p0) es s) {t k i : Nat} {q : Pool} (ho : .leave t k (.descr q i) ∈ es) :
    ∃ acc' fs d, Hist W.env acc' q ∧ acc <+: acc' ∧ W.fds (T k).bytes = some fs ∧
      (∀ x ∈ fs, ∃ j, q.fileByName x.name = some j) ∧
      q.messages[i]? = some d ∧ d.id.fullName = stripDot (T k).name := by
  obtain ⟨⟨a, t0, m, d, t1, e, f, hG, hm, he⟩, hn⟩ := h.sound ho
  obtain ⟨l, l', g1, g2, g3, g4, h1, h2, h3, h4, _⟩ := order h.global hG hm he
  obtain ⟨rfl, rfl⟩ := does_get h4
  obtain ⟨fs, _, _, k3, k4, k5⟩ := does_done h2
  obtain ⟨acc1, H1, p1, _⟩ := serial_hist h1 (does_clean h2 k5) hW
  obtain ⟨acc3, H3, p3, _⟩ := serial_hist h3 rfl (Hist.accept _ _ _ _ H1 k4)
  obtain ⟨d', hd, hf⟩ := (C18_message hsr H3 _ _).mp hn
  exact ⟨acc3, fs, d', H3, p1.trans ((List.prefix_append _ _).trans p3), k3 _ rfl,
    fun x hx => C84_visible hsr hW h.global hG hm he (.inr ⟨_, fs, rfl, k3 _ rfl, hx⟩), hd, hf⟩

/-- **C86**, always the same message: two calls of `descriptor()` of one type, in whatever threads and with
whatever happening between them, return the same index, and the message there is the same but for the
extensions known of it. -/
theorem C86_same (hsr : SearchOk W.env.search) {acc : List FileP} (hW : Hist W.env acc W.first)
    (h : Derive.Steps W T (Derive.start p0) es s) {t t' k i j : Nat} {p q : Pool} (ho : .leave t k (.descr p i) ∈ es)
    (ho' : .leave t' k (.descr q j) ∈ es) :
    i = j ∧ ∃ m m', p.messages[i]? = some m ∧ q.messages[i]? = some m' ∧ m.forget = m'.forget := by
  have key : ∀ {p q : Pool} {i j t t' : Nat}, .leave t k (.descr p i) ∈ es → .leave t' k (.descr q j) ∈ es → Keeps p q →
      i = j ∧ ∃ m m', p.messages[i]? = some m ∧ q.messages[i]? = some m' ∧ m.forget = m'.forget := by
    intro p q i j t t' ho ho' hk
    obtain ⟨hg, hn⟩ := h.sound ho
    obtain ⟨hg', hn'⟩ := h.sound ho'
    obtain ⟨acc1, _, m, H, _, _, _, hm, hf⟩ := C86_found hsr hW h ho
    obtain ⟨acc2, _, _, H', _⟩ := C86_found hsr hW h ho'
    obtain ⟨m', k1, k2⟩ := hk.messages i m hm
    have : q.messageByName (T k).name = some i :=
      (C18_message hsr H' _ _).mpr ⟨m', k1, by rw [← hf]; exact congrArg MsgD.id k2 ▸ rfl⟩
    rw [this] at hn'
    cases hn'
    exact ⟨rfl, m, m', hm, k1, k2.symm⟩
  rcases copies_keep hsr hW h.global (h.sound ho).1 (h.sound ho').1 with hk | hk
  · exact key ho ho' hk
  · obtain ⟨rfl, m, m', h1, h2, h3⟩ := key ho' ho hk
    exact ⟨rfl, m', m, h2, h1, h3.symm⟩

/-- A file that somebody adds in this run, if it is new. -/
def Offered (W : World) (T : Nat → Ty) (es : List Ev) (x : FileP) : Prop :=
  (∃ t c, .glob (.call t c) ∈ es ∧ Adds W c x) ∨
    ∃ t k fs, .load t k ∈ es ∧ W.fds (T k).bytes = some fs ∧ x ∈ fs

theorem offered_of_call {t : Nat} {c : Call} {x : FileP} (h : .call t c ∈ es.filterMap (Ev.global T)) (hx : Adds W c x) :
    Offered W T es x := by
  obtain ⟨v, hv, e⟩ := List.mem_filterMap.mp h
  cases v with
  | glob v => cases e; exact .inl ⟨t, c, hv, hx⟩
  | load t' k =>
    cases e
    rcases hx with hx | ⟨b, fs, e, h1, h2⟩
    · cases hx
    · cases e; exact .inr ⟨t, k, fs, hv, h1, h2⟩
  | enter => cases e
  | leave => cases e

/-- **C86**, panics: if files of the same name are the same file, in the whole program, and the type's own
files declare its message, then `descriptor()` panics only if the type's own files were refused or another
use of the global pool panicked. -/
theorem C86_panics_partial (hsr : SearchOk W.env.search) {acc : List FileP} (hW : Hist W.env acc W.first)
    (h : Derive.Steps W T (Derive.start p0) es s)
    (hsame : ∀ x y, x ∈ acc ∨ Offered W T es x → y ∈ acc ∨ Offered W T es y → x.name = y.name → x = y)
    {k : Nat} {fs : List FileP} (hfs : W.fds (T k).bytes = some fs) {f : FileP} (hf : f ∈ fs) {path : Path} {sc : Name} {m : MsgP}
    (hm : Has f path sc (.message m)) (hn : (T k).name = qualified sc m.name) (hdot : (T k).name.head? ≠ some '.')
    {t : Nat} (ho : .leave t k .panic ∈ es) :
    Failed (T k).bytes (es.filterMap (Ev.global T)) ∨ ∃ t', .glob (.ret t' .panic) ∈ es := by
  rcases h.sound ho with ⟨p, ⟨a, t0, b, d, t1, e, c, hG, hb, he⟩, hnone⟩ | hF | ⟨t', ht⟩
  · exfalso
    obtain ⟨l, l', g1, g2, g3, g4, h1, h2, h3, h4, hcalls⟩ := order h.global hG hb he
    obtain ⟨rfl, rfl⟩ := does_get h4
    obtain ⟨fs', _, _, k3, k4, k5⟩ := does_done h2
    have := k3 _ rfl
    rw [hfs] at this
    cases this
    have hcall : Global.Ev.call t0 (.decode (T k).bytes) ∈ es.filterMap (Ev.global T) := by rw [hG]; simp
    have own : ∀ x ∈ fs, Offered W T es x := fun x hx => offered_of_call hcall (.inr ⟨_, fs, rfl, hfs, hx⟩)
    obtain ⟨acc1, H1, p1, o1⟩ := serial_hist h1 (does_clean h2 k5) hW
    obtain ⟨acc3, H3, p3, o3⟩ := serial_hist h3 rfl (Hist.accept _ _ _ _ H1 k4)
    have known1 : ∀ y ∈ acc1, y ∈ acc ∨ Offered W T es y := by
      intro y hy
      rcases o1 y hy with hy | ⟨c, hc, hy⟩
      · exact .inl hy
      · obtain ⟨t2, ht⟩ := hcalls c (by rw [List.map_append]; exact List.mem_append_left _ hc)
        exact .inr (offered_of_call ht hy)
    have hin : f ∈ acc3 := by
      by_cases hnew : (lookupN g1.pool.fileNames f.name).isNone
      · exact p3.subset (List.mem_append_right _ (List.mem_filter.mpr ⟨hf, hnew⟩))
      · cases hl : lookupN g1.pool.fileNames f.name with
        | none => rw [hl] at hnew; exact absurd rfl hnew
        | some i =>
          obtain ⟨y, hy, hyn⟩ := (C18_file hsr H1 f.name i).mp hl
          have hy := List.mem_of_getElem? hy
          have := hsame y f (known1 y hy) (.inr (own f hf)) hyn
          subst this
          exact p3.subset (List.mem_append_left _ hy)
    obtain ⟨i, hi⟩ := List.getElem?_of_mem hin
    obtain ⟨j, _, _, _, _, _, _, hj⟩ := C18_message_declared hsr H3 hi hm
    rw [← hn] at hj
    have := hj hdot
    rw [hnone] at this
    cases this
  · exact .inl hF
  · obtain ⟨v, hv, e⟩ := List.mem_filterMap.mp ht
    cases v with
    | glob v => cases e; exact .inr ⟨t', hv⟩
    | load => cases e
    | enter => cases e
    | leave => cases e

/-- No thread will load the files of `k` again. -/
theorem loaded_once (h : Derive.Steps W T (Derive.start p0) es s) (k : Nat) (hl : ∃ t, .load t k ∈ es) :
    s.init k ≠ .new ∧ ∀ u, s.pc u ≠ .starting k := by
  induction h with
  | nil => obtain ⟨t, ht⟩ := hl; cases ht
  | @quiet s1 s' es h0 h1 ih =>
    obtain ⟨i1, i2⟩ := ih hl
    cases h1 with
    | quiet g hq => exact ⟨i1, i2⟩
    | fast t k' =>
      refine ⟨i1, fun u => ?_⟩
      by_cases hu : u = t
      · subst hu; rw [Derive.at_pc]; nofun
      · rw [Derive.at_pc' _ _ hu]; exact i2 u
    | claim t k' hd hp hn =>
      have hk : k ≠ k' := by rintro rfl; exact i1 hn
      refine ⟨?_, fun u => ?_⟩
      · show (if k = k' then _ else s1.init k) ≠ _
        rw [if_neg hk]; exact i1
      · by_cases hu : u = t
        · subst hu; rw [Derive.at_pc]; intro e; cases e; exact hk rfl
        · rw [Derive.at_pc' _ _ hu]; exact i2 u
    | spoilt t k' =>
      refine ⟨i1, fun u => ?_⟩
      by_cases hu : u = t
      · subst hu; rw [Derive.at_pc]; nofun
      · rw [Derive.at_pc' _ _ hu]; exact i2 u
  | @seen s1 s' es e h0 h1 ih =>
    have step : ∀ (s2 : Derive.St) (t : Nat) (x : Derive.Pc), (s1.init k ≠ .new ∧ ∀ u, s1.pc u ≠ .starting k) → s2.pc = s1.pc →
        (s2.init k ≠ .new) → x ≠ .starting k → (s2.at t x).init k ≠ .new ∧ ∀ u, (s2.at t x).pc u ≠ .starting k := by
      intro s2 t x hi h1 h2 h3
      refine ⟨h2, fun u => ?_⟩
      by_cases hu : u = t
      · subst hu; rw [Derive.at_pc]; exact h3
      · rw [Derive.at_pc' _ _ hu, h1]; exact hi.2 u
    have old : (∀ t, e ≠ .load t k) → s1.init k ≠ .new ∧ ∀ u, s1.pc u ≠ .starting k := by
      intro hne
      obtain ⟨t, ht⟩ := hl
      rcases List.mem_append.mp ht with ht | ht
      · exact ih ⟨t, ht⟩
      · exact absurd (List.mem_singleton.mp ht).symm (hne t)
    cases h1 with
    | call t c g => have := old nofun; exact step _ t _ this rfl this.1 nofun
    | back t c g => have := old nofun; exact step _ t _ this rfl this.1 nofun
    | enter t c => have := old nofun; exact step _ t _ this rfl this.1 nofun
    | load t k' g hp hq =>
      by_cases hk : k' = k
      · subst hk
        have hi := h0.inv.pc t
        rw [hp] at hi
        refine ⟨fun e => ?_, fun u hu => ?_⟩
        · have := hi.2.symm.trans e
          cases this
        · by_cases hut : u = t
          · subst hut; rw [Derive.at_pc] at hu; cases hu
          · rw [Derive.at_pc' _ _ hut] at hu
            have h2 := h0.inv.pc u
            rw [show s1.pc u = .starting k' from hu] at h2
            have := h2.2.symm.trans hi.2
            cases this
            exact hut rfl
      · have := old (fun t' e => by cases e; exact hk rfl)
        exact step _ t _ this rfl this.1 nofun
    | ok t k' g =>
      have := old nofun
      refine step _ t _ this rfl ?_ nofun
      show (if k = k' then _ else s1.init k) ≠ _
      split
      · nofun
      · exact this.1
    | bad t k' r g =>
      have := old nofun
      refine step _ t _ this rfl ?_ nofun
      show (if k = k' then _ else s1.init k) ≠ _
      split
      · nofun
      · exact this.1
    | get t c g => have := old nofun; exact step _ t _ this rfl this.1 nofun
    | found t c g => have := old nofun; exact step _ t _ this rfl this.1 nofun
    | lost t c r g => have := old nofun; exact step _ t _ this rfl this.1 nofun
    | leave t k' o => have := old nofun; exact step _ t _ this rfl this.1 nofun

/-- **C86**, once: however many threads ask, the files of a type are handed to the global pool at most once. -/
theorem C86_once (h : Derive.Steps W T (Derive.start p0) es s) {t t' k : Nat} {a b : List Ev}
    (he : es = a ++ .load t k :: b) : .load t' k ∉ b := by
  suffices H : ∀ a b, es = a ++ .load t k :: b → .load t' k ∉ b from H a b he
  clear he a b
  induction h with
  | nil => intro a b he; simp at he
  | quiet _ _ ih => exact ih
  | @seen s1 s' es e h0 h1 ih =>
    intro a b he hm
    rcases List.eq_nil_or_concat b with rfl | ⟨b', v, rfl⟩
    · cases hm
    · rw [List.concat_eq_append] at he hm
      have h2 : es ++ [e] = (a ++ .load t k :: b') ++ [v] := by rw [he]; simp
      obtain ⟨h3, h4⟩ := List.append_inj' h2 rfl
      cases h4
      rcases List.mem_append.mp hm with hm | hm
      · exact ih a b' h3 hm
      · rw [List.mem_singleton] at hm
        subst hm
        have := (loaded_once h0 k ⟨t, by rw [h3]; simp⟩).2 t'
        cases h1 with
        | load _ _ _ hp => exact this hp

/-- **C86**, no deadlock: in whatever state the threads are, every call of `descriptor()` can still come to
its end, unless a stack overflow ends the process. -/
theorem C86_ends (h : Derive.Steps W T (Derive.start p0) es s) (t : Nat) :
    ∃ es' s', Derive.Steps W T s es' s' ∧ (s'.g.dead = true ∨ s'.pc t = .idle) := Derive.all_end h t

/-! ### The hypotheses can be met -/

/-- A call that the global pool works off without interruption. -/
theorem alone {g : Global.St} {t : Nat} {c : Call} {p' : Pool} {r : Resp} (hs : Calm g) (hp : g.pc t = .called c)
    (he : exec W g.pool c = .ret p' r) : ∃ g1 g', Global.Steps W g [] g1 ∧ Global.Step W g1 (some (.ret t r)) g' ∧ Calm g' ∧
      g'.pool = p' ∧ g'.pc t = .idle ∧ ∀ i, i ≠ t → g'.pc i = g.pc i := by
  have h1 := (Global.Steps.nil (W := W) g).quiet (.ready g t c hs.dead hp hs.once)
  have h2 := h1.quiet (.acquire _ t c hs.dead (Global.at_same _ _ _) hs.owner)
  have h3 := h2.quiet (.enter _ t c hs.dead (Global.at_same _ _ _) hs.clean)
  have h4 := h3.quiet (.finish _ t c g.pool p' r hs.dead (Global.at_same _ _ _) he)
  have h5 := h4.quiet (.unlock _ t c r hs.dead (Global.at_same _ _ _))
  refine ⟨_, _, h5, .ret _ t c r hs.dead (Global.at_same _ _ _), ⟨hs.dead, hs.once, rfl, hs.clean⟩, rfl,
    Global.at_same _ _ _, fun i hi => ?_⟩
  show (if i = t then _ else if i = t then _ else if i = t then _ else if i = t then _ else if i = t then _ else
    if i = t then _ else g.pc i) = g.pc i
  simp only [if_neg hi]

theorem quiets {s : Derive.St} {G : List Global.Ev} {g0 g : Global.St} (h : Global.Steps W g0 G g) (hG : G = []) (hg : g0 = s.g) :
    Derive.Steps W T s [] { s with g := g } := by
  induction h with
  | nil => subst hg; exact .nil _
  | quiet _ h1 ih => exact (ih hG).quiet (.quiet { s with g := _ } _ h1)
  | seen => simp at hG

/-- Nobody does anything. -/
structure Rest (s : Derive.St) (p : Pool) : Prop where
  calm : Calm s.g
  pool : s.g.pool = p
  idle : ∀ t, s.pc t = .idle
  inner : ∀ t, s.g.pc t = .idle

/-- One thread asks for the descriptor for the first time, and nothing else happens. -/
theorem solo {s0 s : Derive.St} {es : List Ev} (h0 : Derive.Steps W T s0 es s) {p q : Pool} (hs : Rest s p) {t k : Nat}
    (hn : s.init k = .new) (he : exec W p (.decode (T k).bytes) = .ret q (.done [])) :
    ∃ s', Derive.Steps W T s0 (es ++ [.enter t k, .load t k, .glob (.ret t (.done [])), .glob (.call t .get),
        .glob (.ret t (.pool q)), .leave t k (Derive.lookup q (T k).name)]) s' ∧ Rest s' q ∧
      s'.init k = .complete ∧ ∀ k', k' ≠ k → s'.init k' = s.init k' := by
  have h1 := h0.seen (.enter s t k hs.calm.dead (hs.idle t))
  have h2 := h1.quiet (.claim _ t k hs.calm.dead (Derive.at_pc _ _ _) hn)
  have h3 := h2.seen (.load _ t k _ (Derive.at_pc _ _ _) (.call s.g t _ hs.calm.dead (hs.inner t)))
  obtain ⟨g1, g2, k1, k2, k3, k4, k5, k6⟩ := alone (W := W) (g := s.g.at t (.called (.decode (T k).bytes)))
    ⟨hs.calm.dead, hs.calm.once, hs.calm.owner, hs.calm.clean⟩ (Global.at_same _ _ _) (by
      show exec W s.g.pool _ = _
      rw [hs.pool]; exact he)
  have h4 := h3.trans (quiets k1 rfl rfl)
  have h5 := h4.seen (.ok _ t k _ (Derive.at_pc _ _ _) k2)
  have h6 := h5.seen (.get _ t k _ (Derive.at_pc _ _ _) (.call g2 t .get k3.dead k5))
  obtain ⟨g3, g4, j1, j2, j3, j4, j5, j6⟩ := alone (W := W) (g := g2.at t (.called .get)) (c := .get)
    ⟨k3.dead, k3.once, k3.owner, k3.clean⟩ (Global.at_same _ _ _) rfl
  have h7 := h6.trans (quiets j1 rfl rfl)
  have h8 := h7.seen (.found _ t k _ _ (Derive.at_pc _ _ _) j2)
  have h9 := h8.seen (.leave _ t k _ j3.dead (Derive.at_pc _ _ _))
  have e2 : g2.pool = q := k4
  refine ⟨_, Eq.mp (congrArg (fun l => Derive.Steps W T s0 l _) ?_) h9, ⟨j3, j4.trans e2, ?_, ?_⟩, ?_, ?_⟩
  · rw [show (g2.at t (.called .get)).pool = q from e2]
    simp
  · intro u
    by_cases hu : u = t
    · subst hu; exact Derive.at_pc _ _ _
    · have := hs.idle u
      rw [Derive.at_pc' _ _ hu, Derive.at_pc' _ _ hu]
      show (if u = t then _ else if u = t then _ else if u = t then _ else if u = t then _ else if u = t then _ else s.pc u) = _
      simp only [if_neg hu]
      exact this
  · intro u
    by_cases hu : u = t
    · subst hu; exact j5
    · show g4.pc u = _
      rw [j6 u hu, Global.at_other _ _ hu, k6 u hu, Global.at_other _ _ hu]
      exact hs.inner u
  · exact if_pos rfl
  · intro k' hk
    show (if k' = k then _ else if k' = k then _ else s.init k') = _
    rw [if_neg hk, if_neg hk]

/-- The program starts and somebody asks for the global pool. -/
theorem begin (W : World) (T : Nat → Ty) : ∃ s, Derive.Steps W T (Derive.start Pool.empty)
    [.glob (.call 0 .get), .glob (.ret 0 (.pool W.first))] s ∧ Rest s W.first ∧ ∀ k, s.init k = .new := by
  have h1 := (Derive.Steps.nil (W := W) (T := T) (Derive.start Pool.empty)).seen (.call _ 0 .get _ rfl (.call _ 0 .get rfl rfl))
  have h2 := h1.quiet (.quiet _ _ (.start _ 0 .get rfl rfl rfl))
  have h3 := h2.quiet (.quiet _ _ (.init _ 0 .get rfl rfl))
  have h4 := h3.quiet (.quiet _ _ (.acquire _ 0 .get rfl rfl rfl))
  have h5 := h4.quiet (.quiet _ _ (.enter _ 0 .get rfl rfl rfl))
  have h6 := h5.quiet (.quiet _ _ (.finish _ 0 .get W.first W.first (.pool W.first) rfl rfl rfl))
  have h7 := h6.quiet (.quiet _ _ (.unlock _ 0 .get _ rfl rfl))
  have h8 := h7.seen (.back _ 0 _ _ rfl (.ret _ 0 .get _ rfl rfl))
  refine ⟨_, h8, ⟨⟨rfl, rfl, rfl, rfl⟩, rfl, fun t => ?_, fun t => ?_⟩, fun _ => rfl⟩
  · by_cases ht : t = 0
    · subst ht; rfl
    · exact (Derive.at_pc' _ _ ht).trans (Derive.at_pc' _ _ ht)
  · by_cases ht : t = 0
    · subst ht; rfl
    · show (if t = 0 then _ else if t = 0 then _ else if t = 0 then _ else if t = 0 then _ else if t = 0 then _ else
        if t = 0 then _ else if t = 0 then _ else if t = 0 then _ else _) = _
      simp only [if_neg ht]
      rfl

/-- One thread asks for the descriptor for the first time, and the files are refused. -/
theorem solo_bad {s0 s : Derive.St} {es : List Ev} (h0 : Derive.Steps W T s0 es s) {p q : Pool} (hs : Rest s p) {t k : Nat}
    {e : ErrKind} {errs : List ErrKind} (hn : s.init k = .new) (he : exec W p (.decode (T k).bytes) = .ret q (.done (e :: errs))) :
    ∃ s', Derive.Steps W T s0 (es ++ [.enter t k, .load t k, .glob (.ret t (.done (e :: errs))), .leave t k .panic]) s' := by
  have h1 := h0.seen (.enter s t k hs.calm.dead (hs.idle t))
  have h2 := h1.quiet (.claim _ t k hs.calm.dead (Derive.at_pc _ _ _) hn)
  have h3 := h2.seen (.load _ t k _ (Derive.at_pc _ _ _) (.call s.g t _ hs.calm.dead (hs.inner t)))
  obtain ⟨g1, g2, k1, k2, k3, k4, k5, k6⟩ := alone (W := W) (g := s.g.at t (.called (.decode (T k).bytes)))
    ⟨hs.calm.dead, hs.calm.once, hs.calm.owner, hs.calm.clean⟩ (Global.at_same _ _ _) (by
      show exec W s.g.pool _ = _
      rw [hs.pool]; exact he)
  have h4 := h3.trans (quiets k1 rfl rfl)
  have h5 := h4.seen (.bad _ t k (.done (e :: errs)) _ (Derive.at_pc _ _ _) (by simp) k2)
  have h6 := h5.seen (.leave _ t k _ k3.dead (Derive.at_pc _ _ _))
  exact ⟨_, Eq.mp (congrArg (fun l => Derive.Steps W T s0 l _) (by simp)) h6⟩

/-- What the global pool begins with. -/
def baseFile : FileP := { name := nm "w.proto", package := nm "w", messages := [{ name := nm "W" }] }

/-- Another file called `a.proto`. -/
def otherA : FileP := { name := nm "a.proto", package := nm "other", messages := [{ name := nm "N" }] }

/-- What the bytes of the types say. -/
def sets : Bytes → Option (List FileP)
  | [1] => some [fileA]
  | [2] => some [otherA]
  | [3] => some [fileA, fileB]
  | [4] => some [fileB]
  | _ => none

/-- Four types: `a.b.M`, `other.N`, `c.P` and `c.P` again with too few files. -/
def types : Nat → Ty
  | 0 => ⟨nm "a.b.M", [1]⟩
  | 1 => ⟨nm "other.N", [2]⟩
  | 2 => ⟨nm "c.P", [3]⟩
  | _ => ⟨nm "c.P", [4]⟩

/-- The pools these make. -/
theorem sets_ex : ∃ p q r o e errs p' i j n, buildFiles env0 Pool.empty [baseFile] = .ok ⟨p, []⟩ ∧
    buildFiles env0 p [fileA] = .ok ⟨q, []⟩ ∧ buildFiles env0 q [fileA, fileB] = .ok ⟨r, []⟩ ∧
    buildFiles env0 p [otherA] = .ok ⟨o, []⟩ ∧ buildFiles env0 p [fileB] = .ok ⟨p', e :: errs⟩ ∧
    q.messageByName (nm "a.b.M") = some i ∧ r.messageByName (nm "c.P") = some j ∧
    o.messageByName (nm "other.N") = some n ∧ q.messageByName (nm "other.N") = none ∧
    buildFiles env0 q [otherA] = .ok ⟨q, []⟩ := by
  have hc : (match buildFiles env0 Pool.empty [baseFile] with
    | .ok ⟨p, []⟩ => (match buildFiles env0 p [fileA], buildFiles env0 p [otherA], buildFiles env0 p [fileB] with
      | .ok ⟨q, []⟩, .ok ⟨o, []⟩, .ok ⟨_, _ :: _⟩ => (match buildFiles env0 q [fileA, fileB] with
        | .ok ⟨r, []⟩ => (q.messageByName (nm "a.b.M")).isSome && (r.messageByName (nm "c.P")).isSome &&
            (o.messageByName (nm "other.N")).isSome && (q.messageByName (nm "other.N")).isNone &&
            (lookupN q.fileNames (nm "a.proto")).isSome
        | _ => false)
      | _, _, _ => false)
    | _ => false) = true := by decide +kernel
  split at hc
  · next p h1 =>
    split at hc
    · next q o p' e errs h2 h3 h4 =>
      split at hc
      · next r h5 =>
        simp only [Bool.and_eq_true] at hc
        obtain ⟨⟨⟨⟨c1, c2⟩, c3⟩, c4⟩, c5⟩ := hc
        obtain ⟨i, hi⟩ := Option.isSome_iff_exists.mp c1
        obtain ⟨j, hj⟩ := Option.isSome_iff_exists.mp c2
        obtain ⟨n, hn⟩ := Option.isSome_iff_exists.mp c3
        obtain ⟨x, hx⟩ := Option.isSome_iff_exists.mp c5
        refine ⟨p, q, r, o, e, errs, p', i, j, n, h1, h2, h5, h3, h4, hi, hj, hn, Option.isNone_iff_eq_none.mp c4, ?_⟩
        unfold buildFiles
        exact if_pos (by simp [otherA, hx])
      · cases hc
    · cases hc
  · cases hc

/-- C86_found, C86_same and C86_once: two types that share a file, one after the other. -/
example : ∃ (W : World) (acc : List FileP) (es : List Ev) (s : Derive.St) (q r : Pool) (i j : Nat),
    SearchOk W.env.search ∧ Hist W.env acc W.first ∧ Derive.Steps W types (Derive.start Pool.empty) es s ∧
    .leave 5 0 (.descr q i) ∈ es ∧ .leave 6 2 (.descr r j) ∈ es ∧ .load 5 0 ∈ es := by
  obtain ⟨p, q, r, o, e, errs, p', i, j, n, h1, h2, h3, h4, h5, h6, h7, h8, h9, h10⟩ := sets_ex
  obtain ⟨s1, r1, k1, k2⟩ := begin ⟨env0, sets, p⟩ types
  obtain ⟨s2, r2, k3, _, k4⟩ := solo r1 k1 (t := 5) (k := 0) (q := q) (k2 0) (by
    simp only [exec, types, sets, Global.build, h2])
  obtain ⟨s3, r3, _⟩ := solo r2 k3 (t := 6) (k := 2) (q := r) (by rw [k4 2 (by decide)]; exact k2 2) (by
    simp only [exec, types, sets, Global.build, h3])
  refine ⟨⟨env0, sets, p⟩, _, _, s3, q, r, i, j, linearSearch_ok, .accept _ _ _ _ .empty h1, r3, ?_, ?_, ?_⟩
  · simp [types, Derive.lookup, h6]
  · simp [types, Derive.lookup, h7]
  · simp

/-- C86_panics: a type whose set lacks a file it depends on. -/
example : ∃ (W : World) (acc fs : List FileP) (es : List Ev) (s : Derive.St) (path : Path) (sc : Name) (m : MsgP),
    SearchOk W.env.search ∧ Hist W.env acc W.first ∧ Derive.Steps W types (Derive.start Pool.empty) es s ∧
    (∀ x y, x ∈ acc ∨ Offered W types es x → y ∈ acc ∨ Offered W types es y → x.name = y.name → x = y) ∧
    W.fds (types 3).bytes = some fs ∧ fileB ∈ fs ∧ Has fileB path sc (.message m) ∧ (types 3).name = qualified sc m.name ∧
    (types 3).name.head? ≠ some '.' ∧ .leave 5 3 .panic ∈ es := by
  obtain ⟨p, q, r, o, e, errs, p', i, j, n, h1, h2, h3, h4, h5, h6, h7, h8, h9, h10⟩ := sets_ex
  obtain ⟨s1, r1, k1, k2⟩ := begin ⟨env0, sets, p⟩ types
  obtain ⟨s2, r2⟩ := solo_bad r1 k1 (t := 5) (k := 3) (e := e) (errs := errs) (q := p') (k2 3) (by
    simp only [exec, types, sets, Global.build, h5])
  refine ⟨⟨env0, sets, p⟩, _, [fileB], _, s2, [4, 0], _, _, linearSearch_ok, .accept _ _ _ _ .empty h1, r2, ?_, rfl, by simp,
    .message 0 _ rfl, rfl, by decide, by simp⟩
  have off : ∀ x, (x ∈ [] ++ [baseFile].filter (fun f => (lookupN Pool.empty.fileNames f.name).isNone)) ∨
      Offered ⟨env0, sets, p⟩ types ([.glob (.call 0 .get), .glob (.ret 0 (.pool p))] ++
        [.enter 5 3, .load 5 3, .glob (.ret 5 (.done (e :: errs))), .leave 5 3 .panic]) x → x = baseFile ∨ x = fileB := by
    intro x hx
    rcases hx with hx | ⟨t, c, hc, hx⟩ | ⟨t, k, fs, hl, hf, hx⟩
    · exact .inl (List.mem_singleton.mp (List.mem_filter.mp hx).1)
    · simp only [List.cons_append, List.nil_append, List.mem_cons, Ev.glob.injEq, Global.Ev.call.injEq, reduceCtorEq,
        List.not_mem_nil, or_false, false_or] at hc
      obtain ⟨rfl, rfl⟩ := hc
      rcases hx with hx | ⟨_, _, hx, _⟩ <;> cases hx
    · simp only [List.cons_append, List.nil_append, List.mem_cons, Ev.load.injEq, reduceCtorEq,
        List.not_mem_nil, or_false, false_or] at hl
      obtain ⟨rfl, rfl⟩ := hl
      cases hf
      exact .inr (List.mem_singleton.mp hx)
  intro x y hx hy hn
  rcases off x hx with rfl | rfl <;> rcases off y hy with rfl | rfl
  · rfl
  · exact absurd hn (by decide)
  · exact absurd hn (by decide)
  · rfl

/-- **C86 is false when two types come with different files of one name.** Each type's own set is accepted by
the global pool and declares its message. Alone, `descriptor()` of either returns it. In one program the
one that is asked second panics: its file is taken for the one already there, and the set counts as added. -/
theorem C86_false : ∃ (W : World) (T : Nat → Ty) (acc : List FileP) (f : FileP) (path : Path) (sc : Name) (m : MsgP),
    SearchOk W.env.search ∧ Hist W.env acc W.first ∧ W.fds (T 1).bytes = some [f] ∧ Has f path sc (.message m) ∧
    (T 1).name = qualified sc m.name ∧
    (∃ es s q i, Derive.Steps W T (Derive.start Pool.empty) es s ∧ .leave 6 1 (.descr q i) ∈ es) ∧
    ∃ es s q i, Derive.Steps W T (Derive.start Pool.empty) es s ∧ .leave 5 0 (.descr q i) ∈ es ∧ .leave 6 1 .panic ∈ es ∧
      (∀ t r, .glob (.ret t r) ∈ es → r = .done [] ∨ ∃ p, r = .pool p) := by
  obtain ⟨p, q, r, o, e, errs, p', i, j, n, h1, h2, h3, h4, h5, h6, h7, h8, h9, h10⟩ := sets_ex
  obtain ⟨s1, r1, k1, k2⟩ := begin ⟨env0, sets, p⟩ types
  refine ⟨⟨env0, sets, p⟩, types, _, otherA, [4, 0], _, _, linearSearch_ok, .accept _ _ _ _ .empty h1, rfl,
    .message 0 _ rfl, rfl, ?_, ?_⟩
  · obtain ⟨s2, r2, _⟩ := solo r1 k1 (t := 6) (k := 1) (q := o) (k2 1) (by
      simp only [exec, types, sets, Global.build, h4])
    exact ⟨_, s2, o, n, r2, by simp [types, Derive.lookup, h8]⟩
  · obtain ⟨s2, r2, k3, _, k4⟩ := solo r1 k1 (t := 5) (k := 0) (q := q) (k2 0) (by
      simp only [exec, types, sets, Global.build, h2])
    obtain ⟨s3, r3, _⟩ := solo r2 k3 (t := 6) (k := 1) (q := q) (by rw [k4 1 (by decide)]; exact k2 1) (by
      simp only [exec, types, sets, Global.build, h10])
    refine ⟨_, s3, q, i, r3, by simp [types, Derive.lookup, h6], by simp [types, Derive.lookup, h9], fun t r hr => ?_⟩
    simp only [List.cons_append, List.nil_append, List.mem_cons, Ev.glob.injEq, Global.Ev.ret.injEq, reduceCtorEq,
        List.not_mem_nil, or_false, false_or] at hr
    rcases hr with ⟨_, rfl⟩ | ⟨_, rfl⟩ | ⟨_, rfl⟩ | ⟨_, rfl⟩ | ⟨_, rfl⟩ <;> simp

end Verif.Props
