import Verif.Props.GitSpec
import Verif.Props.Edits
import Verif.Props.Safety
import Verif.Props.Overlap

/-!
# Histories of the program are histories of the small machine (C91)

`Shows` is what a user sees of a state of the machine: every workspace of the machine opens at its path, belongs to the
repository, has the ID and the branch, stands on the commit and shows the files; the history, branches and tags read from it are
those of the repository; no other path opens. `Doing` are the deeds: commands of any users, in any order, that end with success
or are refused, writing through the mounts, and changes of the users' other files.
-/

set_option autoImplicit false
namespace Verif
open M TS Json

/-- A link at `P` that commands take for a workspace. -/
def LeadsIn (E : Env) (P : Str) (x : UEnt) : Prop :=
  ∃ t cwd path m, x = .link t ∧ Path.abs cwd path = P ∧ mountIDOf E.root cwd path (some t) = .ok m

/-- What a user sees of a state of the machine. -/
structure Shows (E : Env) (d : Disk) (G : Git) : Prop where
  ws : ∀ {P : Str} {s : GWs}, G.ws P = some s → ∀ {cwd path : Str}, Path.abs cwd path = P → ∃ w, Gets E d cwd path w ∧ w.spaceID = s.repo ∧
    w.ws.id = s.id ∧ w.ws.branch = s.branch ∧ w.ws.HeadAt w.tree s.next s.on ∧ G.repo s.repo = some w.tree.abs ∧ d.Mounted w ∧ d.lists w = s.files
  no : ∀ {cwd path : Str} {w : OpenWs}, E.Outside (Path.abs cwd path) → Gets E d cwd path w → G.ws (Path.abs cwd path) ≠ none

section
variable {E : Env} {f : Faults}

/-- The command is refused: it fails before it saves. Of several edits in one command the first. -/
inductive Refused (E : Env) (f : Faults) : Disk → Disk → Prop where
  | init {path branch : Str} {d d' : Disk} {e : CErr} : E.Off path → Exec E f (initCmd E path branch) d (.err e) d' → e.early = true → Refused E f d d'
  | clone {cwd source target : Str} {d d' : Disk} {e : CErr} : E.Outside (Path.abs cwd source) → E.Off target →
      Exec E f (cloneCmd E cwd source target) d (.err e) d' → e.early = true → Refused E f d d'
  | commit {cwd : Str} {ci : CommitInfo} {d d' : Disk} {e : CErr} : E.Outside (Path.abs cwd (lit ".")) →
      Exec E f (commitCmd E cwd ci) d (.err e) d' → e.early = true → Refused E f d d'
  | checkout {cwd key : Str} {d d' : Disk} {e : CErr} : E.Outside (Path.abs cwd (lit ".")) →
      Exec E f (checkoutCmd E cwd key) d (.err e) d' → e.early = true → Refused E f d d'
  | edit {cwd : Str} {x : Edit} {d d' : Disk} {e : CErr} : E.Outside (Path.abs cwd (lit ".")) → f.io = false →
      Exec E f (editCmd E cwd [x]) d (.err e) d' → Refused E f d d'

/-- The deeds. A checkout of the working layer of a workspace is left out (C35), and so are commands that fail after they
have saved (C42, C87), restarts (C47) and links to mounts made by hand (C88). -/
inductive Doing (E : Env) (f : Faults) : Deed → Disk → Disk → Prop where
  | init {cwd path branch : Str} {d d' : Disk} {w : OpenWs} : E.Outside (Path.abs cwd path) → Exec E f (initCmd E (Path.abs cwd path) branch) d (.ok w) d' →
      Doing E f (.init (Path.abs cwd path) branch) d d'
  | clone {cwd source cwd2 path2 : Str} {d d' : Disk} {w : OpenWs} : E.Outside (Path.abs cwd source) → E.Outside (Path.abs cwd2 path2) →
      Exec E f (cloneCmd E cwd source (Path.abs cwd2 path2)) d (.ok w) d' → Doing E f (.clone (Path.abs cwd source) (Path.abs cwd2 path2)) d d'
  | commit {cwd : Str} {ci : CommitInfo} {d d' : Disk} {r : OpenWs × OpenWs} : E.Outside (Path.abs cwd (lit ".")) →
      Exec E f (commitCmd E cwd ci) d (.ok r) d' → Doing E f (.commit (Path.abs cwd (lit ".")) ci.date ci.message) d d'
  | checkout {cwd key : Str} {d d' : Disk} {r : OpenWs × OpenWs} : E.Outside (Path.abs cwd (lit ".")) →
      Exec E f (checkoutCmd E cwd key) d (.ok r) d' →
      (∀ w u p v kt, Gets E d cwd (lit ".") w → w.ws.HeadAt w.tree u p → Ws.Resolves w.tree.abs w.ws.id p key v kt → ¬ Head E d v) →
      Doing E f (.checkout (Path.abs cwd (lit ".")) key) d d'
  | edit {cwd : Str} {es : List Edit} {d d' : Disk} {s : TS} : E.Outside (Path.abs cwd (lit ".")) → es ≠ [] →
      (∀ e ∈ es, e.Utf8) → Exec E f (editCmd E cwd es) d (.ok s) d' → Doing E f (.edit (Path.abs cwd (lit ".")) es) d d'
  | write {cwd path n : Str} {m : Mnt} {c : Content} {d : Disk} : d.user (Path.abs cwd path) = .link (E.mountPath n) → d.mnt n = some m →
      Doing E f (.write (Path.abs cwd path)) d (d.put m.upper c)
  | lost {n : Str} {m : Mnt} {c : Content} {d : Disk} : (∀ P, d.user P ≠ .link (E.mountPath n)) → d.mnt n = some m → Doing E f .idle d (d.put m.upper c)
  | files {us : Str → UEnt} {d : Disk} : (∀ P, LeadsIn E P (us P) ∨ LeadsIn E P (d.user P) → us P = d.user P) → Doing E f .idle d { d with user := us }
  | refused {d d' : Disk} : Refused E f d d' → Doing E f .idle d d'
  | look {d : Disk} : Doing E f .idle d d

/-- Any number of deeds, each by any user. -/
inductive Doings (E : Env) (f : Faults) : List Deed → Disk → Disk → Prop where
  | nil {d : Disk} : Doings E f [] d d
  | snoc {d d1 d2 : Disk} {as : List Deed} {a : Deed} {o : Nat} : Doings E f as d d1 → Doing (E.as o) f a d1 d2 → Doings E f (as ++ [a]) d d2

/-! ## The simulation -/

/-- The workspace at `P` is the workspace `s` of the machine. -/
structure Sees (E : Env) (d : Disk) (P : Str) (s : GWs) (w : OpenWs) : Prop where
  abs : ∃ cwd path, Path.abs cwd path = P
  opens : ∀ cwd path, Path.abs cwd path = P → Opens E d cwd path w s.next s.on
  link : d.user P = .link (E.mountPath w.mount.id.base32)
  repo : w.spaceID = s.repo
  id : w.ws.id = s.id
  branch : w.ws.branch = s.branch
  files : ∃ ls, d.mnt w.mount.id.base32 = some ⟨s.next, ls⟩ ∧ w.tree.abs.Path s.on ls ∧ s.files = Verif.files ((s.next :: ls).map d.content)
  mdir : ∃ m c, d.mdir w.mount.id.base32 = some m ∧ m.merged = some c

/-- The disk is a state of the machine. -/
structure Sim (E : Env) (d : Disk) (g : Str → Option TS) (G : Git) : Prop where
  steady : Steady E d g
  sees : ∀ P s, G.ws P = some s → ∃ w, Sees E d P s w ∧ G.repo s.repo = some w.tree.abs
  base : ∀ P s, G.ws P = some s → G.snap s.on ≠ none
  one : ∀ P P' s s', G.ws P = some s → G.ws P' = some s' → s.next = s'.next → P = P'
  links : ∀ P, LeadsIn E P (d.user P) → G.ws P ≠ none
  snap : ∀ v F, G.snap v = some F → ¬ Head E d v ∧ d.HasDiff v ∧
    ∀ r a, G.repo r = some a → a.Has v → ∃ ls, a.Path v ls ∧ files (ls.map d.content) = F ∧ ∀ x ∈ ls, G.snap x ≠ none
  all : ∀ r a v, G.repo r = some a → a.Has v → G.snap v ≠ none ∨ Head E d v
  stored : ∀ r a, G.repo r = some a → Stored d a
  space : ∀ r a, G.repo r = some a → d.space r.base32 ≠ none
  apart : ∀ r r' a a' v, G.repo r = some a → G.repo r' = some a' → a.Has v → a'.Has v → r = r'

theorem opens_abs {d : Disk} {cwd path cwd' path' : Str} {w : OpenWs} {u p : UID} (h : Opens E d cwd path w u p) (he : Path.abs cwd' path' = Path.abs cwd path)
    (hl : d.user (Path.abs cwd path) = .link (E.mountPath w.mount.id.base32)) : Opens E d cwd' path' w u p :=
  ⟨by rw [he]; exact h.out, ⟨_, by rw [he]; exact hl, leads_mountPath _ _ _⟩, by rw [he]; exact h.path, h.info, h.mount, h.dir, h.tree, h.head, h.stored⟩

theorem opens_tree {d : Disk} {cwd path cwd' path' : Str} {w w' : OpenWs} {u p u' p' : UID} (h : Opens E d cwd path w u p) (h' : Opens E d cwd' path' w' u' p')
    (he : w.spaceID = w'.spaceID) : w.tree = w'.tree := by
  obtain ⟨_, b, _, _, e1, e2⟩ := h.tree
  obtain ⟨_, b', _, _, e1', e2'⟩ := h'.tree
  rw [h.dir, he, ← h'.dir, e1'] at e1
  cases e1
  rw [e2'] at e2
  exact (Res.ok.inj e2).symm

theorem sees_found {d : Disk} {g : Str → Option TS} (h : Steady E d g) {P : Str} {s : GWs} {w : OpenWs} (hS : Sees E d P s w) {cwd path : Str} (he : Path.abs cwd path = P) :
    ∃ T, Found E d g cwd path w s.next s.on T := by
  have ho := hS.opens cwd path he
  exact gets_found h ho.out (gets_of_opens ho) ho.head

theorem sees_head {d : Disk} {g : Str → Option TS} (h : Steady E d g) {P : Str} {s : GWs} {w : OpenWs} (hS : Sees E d P s w) : Head E d s.next := by
  obtain ⟨cwd, path, he⟩ := hS.abs
  obtain ⟨r, r1, _, _, _, r5, _⟩ := rec_of_opens h (hS.opens cwd path he)
  exact ⟨_, r, r1, r5⟩

/-- The layers of a mount are there. -/
theorem sees_layers {d : Disk} {g : Str → Option TS} (h : Steady E d g) {P : Str} {s : GWs} {w : OpenWs} (hS : Sees E d P s w) {ls : List UID}
    (hm : d.mnt w.mount.id.base32 = some ⟨s.next, ls⟩) : ∀ x ∈ s.next :: ls, d.HasDiff x := by
  intro x hx
  rcases List.mem_cons.1 hx with rfl | hx
  · exact head_stored h (sees_head h hS)
  · obtain ⟨_, _, _, h3, _⟩ := h.mnt _ _ hm
    exact h3 x hx

theorem map_content {d d' : Disk} {ls : List UID} (h : ∀ x ∈ ls, d'.content x = d.content x) : ls.map d'.content = ls.map d.content :=
  List.map_congr_left h

/-- A workspace that a deed leaves alone. -/
theorem sees_kept {d d' : Disk} {g g' : Str → Option TS} (h : Steady E d g) (h' : Steady E d' g') (hG : Grew E d g d' g') (hK : Kept g g')
    {P : Str} {s : GWs} {w : OpenWs} (hS : Sees E d P s w) (hu : d'.user P = d.user P)
    (hk : d'.mnt w.mount.id.base32 = d.mnt w.mount.id.base32 ∧ d'.info w.mount.id.base32 = d.info w.mount.id.base32 ∧ d'.mdir w.mount.id.base32 = d.mdir w.mount.id.base32)
    (hc : ∀ x, d.HasDiff x → d'.content x = d.content x) :
    ∃ w2, Sees E d' P s w2 ∧ (d'.space s.repo.base32 = d.space s.repo.base32 → w2.tree = w.tree) := by
  obtain ⟨cwd, path, he⟩ := hS.abs
  obtain ⟨T, hF⟩ := sees_found h hS he
  obtain ⟨w2, o, e1, e2, e3, e4, e5⟩ := others_open h h' hG hK hF (by rw [he]; exact hu) hk.2.1
  obtain ⟨ls, l1, l2, l3⟩ := hS.files
  have hl : d'.user P = .link (E.mountPath w2.mount.id.base32) := by rw [hu, e3]; exact hS.link
  refine ⟨w2, ⟨⟨cwd, path, he⟩, fun cwd' path' he' => opens_abs o (he'.trans he.symm) (by rw [he]; exact hl), hl, e2.trans hS.repo, e1.trans hS.id, e4.trans hS.branch,
    ⟨ls, by rw [e3, hk.1]; exact l1, extends_path e5 l2, ?_⟩, by rw [e3, hk.2.2]; exact hS.mdir⟩, fun hsp => ?_⟩
  · rw [l3, map_content fun x hx => hc x (sees_layers h hS l1 x hx)]
  · obtain ⟨_, b, _, _, a1, a2⟩ := hF.opens.tree
    obtain ⟨_, b', _, _, b1, b2⟩ := o.tree
    rw [o.dir, e2, hS.repo, hsp, ← hS.repo, ← hF.opens.dir, a1] at b1
    cases b1
    rw [a2] at b2
    exact (Res.ok.inj b2).symm

theorem sees_mount {d : Disk} {P P' : Str} {s s' : GWs} {w w' : OpenWs} (hS : Sees E d P s w) (hS' : Sees E d P' s' w')
    (he : w.mount.id.base32 = w'.mount.id.base32) : s.next = s'.next := by
  obtain ⟨ls, l1, _⟩ := hS.files
  obtain ⟨ls', l1', _⟩ := hS'.files
  rw [he, l1'] at l1
  simp only [Option.some.injEq, Mnt.mk.injEq] at l1
  exact l1.1.symm

theorem has_stored {d : Disk} {g : Str → Option TS} {G : Git} (hS : Sim E d g G) {r v : UID} {a : ATree} (hr : G.repo r = some a) (hv : a.Has v) : d.HasDiff v :=
  hS.stored r a hr v hv

theorem sim_new {d : Disk} {g : Str → Option TS} {G : Git} (hS : Sim E d g G) {v : UID} (hv : ¬ d.HasDiff v) : G.New v :=
  ⟨Option.eq_none_iff_forall_ne_some.2 fun F hF => hv (hS.snap v F hF).2.1, fun _ _ hr hh => hv (hS.stored _ _ hr v hh)⟩

/-- A workspace is placed at `P`, or replaces the one that was there. -/
theorem sim_place {d d' : Disk} {g g' : Str → Option TS} {G : Git} (hS : Sim E d g G) (h' : Steady E d' g') (hG : Grew E d g d' g') (hK : Kept g g')
    (hc : ∀ x, d.HasDiff x → d'.content x = d.content x) {P : Str} {old : Str → Prop} {s' : GWs} {w2 : OpenWs} {S : UID → Option Files}
    (hu : ∀ P', P' ≠ P → d'.user P' = d.user P') (hk : ∀ k (rc : WsRec), d.info k = some (rc.bytes E) → ¬ old k → d'.mnt k = d.mnt k ∧ d'.info k = d.info k ∧ d'.mdir k = d.mdir k)
    (hold : ∀ k, old k → ∃ s w, G.ws P = some s ∧ Sees E d P s w ∧ k = w.mount.id.base32 ∧ S s.next ≠ none)
    (hsees : Sees E d' P s' w2) (hnext : ∀ P1 s1, P1 ≠ P → G.ws P1 = some s1 → s1.next ≠ s'.next)
    (hspace : ∀ k, d.space k ≠ none → k ≠ s'.repo.base32 → d'.space k = d.space k)
    (ha : ∀ a, G.repo s'.repo = some a → Extends (fun _ => True) a w2.tree.abs)
    (hnew : ∀ v, w2.tree.abs.Has v → (∃ a, G.repo s'.repo = some a ∧ a.Has v) ∨ (¬ d.HasDiff v ∧ (v = s'.next ∨ S v ≠ none)))
    (hs1 : ∀ v F, G.snap v = some F → S v = some F)
    (hs2 : ∀ v F, S v = some F → G.snap v = some F ∨ (w2.tree.abs.Has v ∧ ¬ Head E d' v ∧ ∃ ls, w2.tree.abs.Path v ls ∧ files (ls.map d'.content) = F ∧ ∀ x ∈ ls, S x ≠ none))
    (hs3 : S s'.on ≠ none) :
    Sim E d' g' ⟨upd G.repo s'.repo (some w2.tree.abs), S, upd G.ws P (some s')⟩ := by
  have hS' : ∀ v, G.snap v ≠ none → S v ≠ none := by
    intro v hv
    cases hx : G.snap v with
    | none => exact absurd hx hv
    | some F => rw [hs1 v F hx]; simp
  have hst2 : Stored d' w2.tree.abs := by
    obtain ⟨cwd, path, he⟩ := hsees.abs
    exact (hsees.opens cwd path he).stored
  have hapart : ∀ r a v, r ≠ s'.repo → G.repo r = some a → a.Has v → ¬ w2.tree.abs.Has v := by
    intro r a v hne hr hv h2
    rcases hnew v h2 with ⟨a0, e1, e2⟩ | ⟨e, _⟩
    · exact hne (hS.apart _ _ _ _ v hr e1 hv e2)
    · exact e (hS.stored _ _ hr v hv)
  have hheads : ∀ v, Head E d v → S v ≠ none ∨ Head E d' v := by
    rintro v ⟨n, rc, h1, h2⟩
    by_cases ho : old n
    · obtain ⟨s, w, g1, g2, rfl, g4⟩ := hold n ho
      obtain ⟨cwd, path, he⟩ := g2.abs
      obtain ⟨rc', r1, _, _, _, r5, _⟩ := rec_of_opens hS.steady (g2.opens cwd path he)
      rw [h1] at r1
      have := rec_bytes_inj (Option.some.inj r1)
      have e : v = s.next := by rw [← h2, ← r5]; exact this.2.2.2.1
      rw [e]; exact Or.inl g4
    · exact Or.inr ⟨n, rc, by rw [(hk n rc h1 ho).2.1]; exact h1, h2⟩
  refine ⟨h', fun P1 s1 h1 => ?_, fun P1 s1 h1 => ?_, fun P1 P2 s1 s2 h1 h2 e => ?_, fun P1 h1 => ?_, fun v F hv => ?_, fun r a v hr hv => ?_, fun r a hr => ?_,
    fun r a hr => ?_, fun r r' a a' v hr hr' hv hv' => ?_⟩
  · by_cases hP : P1 = P
    · subst hP
      simp only [upd_self, Option.some.injEq] at h1
      subst h1
      exact ⟨w2, hsees, upd_self _ _ _⟩
    · simp only [upd_ne _ _ hP] at h1
      obtain ⟨w, g1, g2⟩ := hS.sees P1 s1 h1
      have hi : ∃ rc : WsRec, d.info w.mount.id.base32 = some (rc.bytes E) := by
        obtain ⟨cwd, path, he⟩ := g1.abs
        obtain ⟨rc', r1, _⟩ := rec_of_opens hS.steady (g1.opens cwd path he)
        exact ⟨rc', r1⟩
      obtain ⟨rc, hi⟩ := hi
      have hno : ¬ old w.mount.id.base32 := by
        intro ho
        obtain ⟨s, w0, q1, q2, q3, _⟩ := hold _ ho
        exact hP (hS.one _ _ _ _ h1 q1 (sees_mount g1 q2 q3))
      obtain ⟨w3, g3, g4⟩ := sees_kept hS.steady h' hG hK g1 (hu P1 hP) (hk _ rc hi hno) hc
      refine ⟨w3, g3, ?_⟩
      show upd G.repo s'.repo (some w2.tree.abs) s1.repo = _
      by_cases hr : s1.repo = s'.repo
      · obtain ⟨cwd, path, he⟩ := g3.abs
        obtain ⟨cwd2, path2, he2⟩ := hsees.abs
        rw [hr, upd_self, opens_tree (g3.opens _ _ he) (hsees.opens _ _ he2) (by rw [g3.repo, hsees.repo, hr])]
      · rw [upd_ne _ _ hr, g2, g4 (hspace _ (hS.space _ _ g2) fun e => hr (base32_inj e))]
  · by_cases hP : P1 = P
    · subst hP
      simp only [upd_self, Option.some.injEq] at h1
      subst h1
      exact hs3
    · simp only [upd_ne _ _ hP] at h1
      exact hS' _ (hS.base _ _ h1)
  · by_cases hP : P1 = P
    · subst hP
      by_cases hP' : P2 = P1
      · exact hP'.symm
      · simp only [upd_self, Option.some.injEq] at h1
        simp only [upd_ne _ _ hP'] at h2
        subst h1
        exact absurd e.symm (hnext _ _ hP' h2)
    · simp only [upd_ne _ _ hP] at h1
      by_cases hP' : P2 = P
      · subst hP'
        simp only [upd_self, Option.some.injEq] at h2
        subst h2
        exact absurd e (hnext _ _ hP h1)
      · simp only [upd_ne _ _ hP'] at h2
        exact hS.one _ _ _ _ h1 h2 e
  · show upd G.ws P (some s') P1 ≠ none
    by_cases hP : P1 = P
    · subst hP; rw [upd_self]; simp
    · rw [upd_ne _ _ hP]
      rw [hu P1 hP] at h1
      exact hS.links P1 h1
  · rcases hs2 v F hv with e | ⟨e1, e2, e3⟩
    · obtain ⟨g1, g2, g3⟩ := hS.snap v F e
      refine ⟨fun hh => g1 (hG.heads v hh g2), hG.diff v g2, fun r a hr hv => ?_⟩
      have path : ∀ {a0}, G.repo r = some a0 → a0.Has v → Extends (fun _ => True) a0 a → ∃ ls, a.Path v ls ∧ files (ls.map d'.content) = F ∧ ∀ x ∈ ls, S x ≠ none := by
        intro a0 hr0 hv0 hx
        obtain ⟨ls, l1, l2, l3⟩ := g3 r a0 hr0 hv0
        refine ⟨ls, extends_path hx l1, ?_, fun x hx => hS' x (l3 x hx)⟩
        rw [← l2, map_content fun x hx => hc x (hS.stored r a0 hr0 x (path_has l1 x hx))]
      by_cases he : r = s'.repo
      · subst he
        simp only [upd_self, Option.some.injEq] at hr
        subst hr
        rcases hnew v hv with ⟨a0, f1, f2⟩ | ⟨f1, _⟩
        · exact path f1 f2 (ha a0 f1)
        · exact absurd g2 f1
      · simp only [upd_ne _ _ he] at hr
        exact path hr hv (extends_refl _)
    · refine ⟨e2, hst2 v e1, fun r a hr hv => ?_⟩
      by_cases he : r = s'.repo
      · subst he
        simp only [upd_self, Option.some.injEq] at hr
        subst hr
        exact e3
      · simp only [upd_ne _ _ he] at hr
        exact absurd e1 (hapart r a v he hr hv)
  · have keep : ∀ {a0}, G.repo r = some a0 → a0.Has v → S v ≠ none ∨ Head E d' v := by
      intro a0 h0 hv0
      rcases hS.all r a0 v h0 hv0 with e | e
      · exact Or.inl (hS' v e)
      · exact hheads v e
    by_cases he : r = s'.repo
    · subst he
      simp only [upd_self, Option.some.injEq] at hr
      subst hr
      rcases hnew v hv with ⟨a0, f1, f2⟩ | ⟨_, rfl | f⟩
      · exact keep f1 f2
      · exact Or.inr (sees_head h' hsees)
      · exact Or.inl f
    · simp only [upd_ne _ _ he] at hr
      exact keep hr hv
  · by_cases he : r = s'.repo
    · subst he
      simp only [upd_self, Option.some.injEq] at hr
      subst hr
      exact hst2
    · simp only [upd_ne _ _ he] at hr
      exact fun v hv => hG.diff v (hS.stored r a hr v hv)
  · by_cases he : r = s'.repo
    · subst he
      obtain ⟨cwd, path, he⟩ := hsees.abs
      have o := hsees.opens cwd path he
      obtain ⟨_, b, _, _, e1, _⟩ := o.tree
      rw [o.dir, hsees.repo] at e1
      rw [e1]; simp
    · simp only [upd_ne _ _ he] at hr
      rw [hspace _ (hS.space _ _ hr) fun e => he (base32_inj e)]
      exact hS.space _ _ hr
  · by_cases he : r = s'.repo
    · subst he
      simp only [upd_self, Option.some.injEq] at hr
      subst hr
      by_cases he' : r' = s'.repo
      · exact he'.symm
      · simp only [upd_ne _ _ he'] at hr'
        exact absurd hv (hapart _ _ _ he' hr' hv')
    · simp only [upd_ne _ _ he] at hr
      by_cases he' : r' = s'.repo
      · subst he'
        simp only [upd_self, Option.some.injEq] at hr'
        subst hr'
        exact absurd hv' (hapart _ _ _ he hr hv)
      · simp only [upd_ne _ _ he'] at hr'
        exact hS.apart _ _ _ _ v hr hr' hv hv'

theorem path_head {a : ATree} {v : UID} {ls : List UID} (h : a.Path v ls) : v ∈ ls := by
  cases h <;> exact List.mem_cons_self

theorem files_none : files [] = fun _ => none := by
  have hs : ∀ p, stack [] p = [] := by
    intro p
    induction p with
    | nil => rfl
    | cons x p ih => rw [stack, ih]; rfl
  funext p
  cases p with
  | nil => rfl
  | cons x p =>
    show view [] (x :: p) = none
    rw [view, hs]; rfl

/-- The workspace that a command opens is one of the machine. -/
theorem sim_here {d : Disk} {g : Str → Option TS} {G : Git} (hS : Sim E d g G) {cwd path : Str} {w : OpenWs} {u p : UID} {T : TS} (hF : Found E d g cwd path w u p T) :
    ∃ s, G.ws (Path.abs cwd path) = some s ∧ Sees E d (Path.abs cwd path) s w ∧ G.repo s.repo = some w.tree.abs ∧ u = s.next ∧ p = s.on := by
  obtain ⟨t, e1, e2⟩ := hF.opens.link
  have hl := hS.links (Path.abs cwd path) ⟨t, cwd, path, _, e1, rfl, e2⟩
  cases hx : G.ws (Path.abs cwd path) with
  | none => exact absurd hx hl
  | some s =>
    obtain ⟨w', h1, h2⟩ := hS.sees _ s hx
    obtain ⟨rfl, rfl, rfl⟩ := opens_unique hF.opens (h1.opens cwd path rfl)
    exact ⟨s, rfl, h1, h2, rfl, rfl⟩

/-- The commit a workspace stands on has a snapshot, which lies under its files. -/
theorem sim_base {d : Disk} {g : Str → Option TS} {G : Git} (hS : Sim E d g G) {P : Str} {s : GWs} {w : OpenWs} (hs : G.ws P = some s) (hw : Sees E d P s w)
    (hr : G.repo s.repo = some w.tree.abs) :
    ∃ F ls, G.snap s.on = some F ∧ w.tree.abs.Path s.on ls ∧ files (ls.map d.content) = F ∧ (∀ x ∈ ls, G.snap x ≠ none) ∧
      d.mnt w.mount.id.base32 = some ⟨s.next, ls⟩ ∧ s.files = files ((s.next :: ls).map d.content) ∧ w.tree.abs.Path s.next (s.next :: ls) := by
  obtain ⟨ls, l1, l2, l3⟩ := hw.files
  cases hx : G.snap s.on with
  | none => exact absurd hx (hS.base P s hs)
  | some F =>
    obtain ⟨ls', k1, k2, k3⟩ := (hS.snap _ F hx).2.2 _ _ hr (by
      obtain ⟨cwd, path, he⟩ := hw.abs
      exact path_has l2 _ (path_head l2))
    have := Ws.path_unique k1 l2
    subst this
    refine ⟨F, ls', rfl, l2, k2, k3, l1, l3, ?_⟩
    obtain ⟨cwd, path, he⟩ := hw.abs
    obtain ⟨_, n, n1, n2⟩ := (hw.opens cwd path he).head
    exact .step n1 n2 l2

/-- The working layer of a workspace has no snapshot. -/
theorem sim_open {d : Disk} {g : Str → Option TS} {G : Git} (hS : Sim E d g G) {P : Str} {s : GWs} {w : OpenWs} (hw : Sees E d P s w) : G.snap s.next = none :=
  Option.eq_none_iff_forall_ne_some.2 fun F hF => (hS.snap _ F hF).1 (sees_head hS.steady hw)

theorem sees_new {d : Disk} {cwd path : Str} {w : OpenWs} {u q i r : UID} {b : Str} {ls : List UID} {F : Files} (ho : Opens E d cwd path w u q)
    (hl : d.user (Path.abs cwd path) = .link (E.mountPath w.mount.id.base32)) (hm : d.mnt w.mount.id.base32 = some ⟨u, ls⟩) (hp : w.tree.abs.Path q ls)
    (hF : F = files ((u :: ls).map d.content)) (hr : w.spaceID = r) (hi : w.ws.id = i) (hb : w.ws.branch = b)
    (hd : ∃ m c, d.mdir w.mount.id.base32 = some m ∧ m.merged = some c) :
    Sees E d (Path.abs cwd path) ⟨r, i, b, u, q, F⟩ w :=
  ⟨⟨cwd, path, rfl⟩, fun _ _ he => opens_abs ho he hl, hl, hr, hi, hb, ⟨ls, hm, hp, hF⟩, hd⟩

theorem fresh_content {d d' : Disk} {n path : Str} {old : Str → Prop} {u' : UID} {ls : List UID} (h : Fresh E d d' n old u' ls path) {x : UID} (hx : d.HasDiff x) :
    d'.content x = d.content x := by
  have : x ≠ u' := by
    rintro rfl
    obtain ⟨c, hc⟩ := hx
    rw [h.newLayer] at hc; cases hc
  simp only [Disk.content, h.layer, upd_ne _ _ this]

theorem fresh_files {d d' : Disk} {n path : Str} {old : Str → Prop} {u' : UID} {ls : List UID} (h : Fresh E d d' n old u' ls path) (hx : ∀ x ∈ ls, d.HasDiff x) :
    files ((u' :: ls).map d'.content) = files (ls.map d.content) := by
  have hb : Blank (d'.content u') := by
    simp only [Disk.content, h.layer, upd_self]
    exact blank_chown _
  rw [List.map_cons, files_blank hb, map_content fun x hm => fresh_content h (hx x hm)]

theorem fresh_others {d d' : Disk} {g : Str → Option TS} (hs : Steady E d g) {n path : Str} {old : Str → Prop} {u' : UID} {ls : List UID} (h : Fresh E d d' n old u' ls path)
    (k : Str) (rc : WsRec) (hk : d.info k = some (rc.bytes E)) (ho : ¬ old k) : d'.mnt k = d.mnt k ∧ d'.info k = d.info k ∧ d'.mdir k = d.mdir k := by
  have hne : k ≠ n := by
    rintro rfl
    exact (backed_of_rec hs hk).mdir h.newMdir
  exact h.others k hne ho

/-- The working layer that is replaced is not one any more. -/
theorem fresh_not_head {d d' : Disk} {g g' : Str → Option TS} (hs : Steady E d g) (hs' : Steady E d' g') {cwd path P : Str} {s : GWs} {w w2 : OpenWs} {u' q : UID} {ls : List UID}
    (hw : Sees E d P s w) (ho : Opens E d' cwd path w2 u' q) (h : Fresh E d d' w2.mount.id.base32 (· = w.mount.id.base32) u' ls P) : ¬ Head E d' s.next := by
  rintro ⟨k, rc, h1, h2⟩
  obtain ⟨c1, p1, he⟩ := hw.abs
  obtain ⟨r0, a1, _, _, _, a5, _⟩ := rec_of_opens hs (hw.opens c1 p1 he)
  by_cases e1 : k = w.mount.id.base32
  · rw [(h.gone k e1).2.1] at h1; cases h1
  · by_cases e2 : k = w2.mount.id.base32
    · subst e2
      obtain ⟨r1, b1, _, _, _, b5, _⟩ := rec_of_opens hs' ho
      rw [h1] at b1
      have e := (rec_bytes_inj (Option.some.inj b1)).2.2.2.1
      obtain ⟨x, hx⟩ := head_stored hs (sees_head hs hw)
      rw [← h2, e, b5, h.newLayer] at hx; cases hx
    · rw [(h.others k e2 e1).2.1] at h1
      exact e1 (hs.heads _ _ _ _ h1 a1 (h2.trans a5.symm))

/-! ## One deed -/

theorem sim_commit {d d' : Disk} {g : Str → Option TS} {G : Git} (hS : Sim E d g G) {cwd : Str} {ci : CommitInfo} {w : OpenWs} {u p : UID} {T : TS}
    (hF : Found E d g cwd (lit ".") w u p T) {r : OpenWs × OpenWs} (he : Exec E f (commitCmd E cwd ci) d (.ok r) d') :
    ∃ G' g', Git.Step (.commit (Path.abs cwd (lit ".")) ci.date ci.message) G G' ∧ Sim E d' g' G' := by
  obtain ⟨s, s1, s2, s3, rfl, rfl⟩ := sim_here hS hF
  obtain ⟨F, ls, f1, f2, f3, f4, f5, f6, f7⟩ := sim_base hS s1 s2 s3
  obtain ⟨_, c1, u', ls', g', w2, c2, c3, c4, c5, c6, c7, c8, c9, c10, c11, c12, c13⟩ := after_commit hS.steady hF he
  have := Ws.path_unique c5 f7
  subst this
  have hpath := hF.opens.path
  rw [hpath] at c12
  have hsp : ∀ k, k ≠ w.spaceDir → d'.space k = d.space k := by
    obtain ⟨_, _, _, _, d1, hC, _, _, hP, rfl⟩ := wpm_exec_ok (commitCmd_wp (f := f) hF.opens hF.mdir) he
    obtain ⟨b, _, hb⟩ := hP.space
    intro k hk
    show d1.space k = _
    rw [hb, hC.spaceDir, upd_ne _ _ hk]
  have hon : w.ws.onBranch = s.full := by simp only [Ws.onBranch, GWs.full, s2.id, s2.branch]
  have hno : ¬ d.HasDiff u' := fun ⟨c, hc⟩ => by rw [c12.newLayer] at hc; cases hc
  have hx : Extends (fun _ => True) w.tree.abs w2.tree.abs := by rw [c11]; exact extends_commit trivial c10
  have hopen := sim_open hS s2
  have hlay : ∀ x ∈ s.next :: ls, d.HasDiff x := sees_layers hS.steady s2 f5
  refine ⟨_, g', .commit (u := u') s1 s3 ?_ (sim_new hS hno), ?_⟩
  · rw [← hon]; exact c1
  have hsee : Sees E d' (Path.abs cwd (lit ".")) { s with on := s.next, next := u' } w2 :=
    sees_new c6 c12.link c12.mnt (extends_path hx f7) (by rw [fresh_files c12 hlay]; exact f6) (c8.trans s2.repo) (c7.trans s2.id) (c9.trans s2.branch) ⟨_, _, c12.mdir, rfl⟩
  have htr : w.tree.abs.commit s.full s.next u' (sanitize ci.date) (sanitize ci.message) = w2.tree.abs := by rw [c11, hon]
  rw [htr]
  refine sim_place (s' := { s with on := s.next, next := u' }) hS c2 c3 c4 (fun x hx => fresh_content c12 hx) c12.user (fresh_others hS.steady c12)
    (fun k hk => ⟨s, w, s1, s2, hk, by rw [upd_self]; simp⟩) hsee (fun P1 t1 _ ht e => ?_) (fun k _ hk => hsp k ?_) (fun a h => ?_) (fun v hv => ?_) (fun v X hv => ?_) (fun v X hv => ?_)
    (by show upd _ _ _ s.next ≠ none; rw [upd_self]; simp)
  · obtain ⟨w1, o1, _⟩ := hS.sees P1 t1 ht
    exact hno (by have := head_stored hS.steady (sees_head hS.steady o1); rw [e] at this; exact this)
  · rw [hF.opens.dir, s2.repo]; exact hk
  · rw [s3] at h; cases h; exact hx
  · rw [c11] at hv
    rcases commit_has hv with rfl | hv
    · exact Or.inr ⟨hno, Or.inl rfl⟩
    · exact Or.inl ⟨_, s3, hv⟩
  · rw [upd_ne _ _ (fun e => by rw [e, hopen] at hv; cases hv)]; exact hv
  · by_cases e : v = s.next
    · subst e
      rw [upd_self] at hv
      cases hv
      refine Or.inr ⟨extends_has hx (path_has f7 _ List.mem_cons_self), c13, _, extends_path hx f7, ?_, fun x hx => ?_⟩
      · rw [map_content fun x hx => fresh_content c12 (hlay x hx), f6]
      · by_cases e : x = s.next
        · rw [e, upd_self]; simp
        · rw [upd_ne _ _ e]
          rcases List.mem_cons.1 hx with h | h
          · exact absurd h e
          · exact f4 x h
    · rw [upd_ne _ _ e] at hv; exact Or.inl hv

theorem sim_checkout {d d' : Disk} {g : Str → Option TS} {G : Git} (hS : Sim E d g G) {cwd key : Str} {w : OpenWs} {u p : UID} {T : TS}
    (hF : Found E d g cwd (lit ".") w u p T) {r : OpenWs × OpenWs} (he : Exec E f (checkoutCmd E cwd key) d (.ok r) d')
    (hnh : ∀ v kt, Ws.Resolves w.tree.abs w.ws.id p key v kt → ¬ Head E d v) :
    ∃ G' g', Git.Step (.checkout (Path.abs cwd (lit ".")) key) G G' ∧ Sim E d' g' G' := by
  have hk := plain_of_checkout he
  obtain ⟨s, s1, s2, s3, rfl, rfl⟩ := sim_here hS hF
  obtain ⟨F0, ls0, f1, f2, f3, f4, f5, f6, f7⟩ := sim_base hS s1 s2 s3
  obtain ⟨_, v, kt, u', ls, g', w2, c1, c2, c3, c4, c5, c6, c7, c8, c9, c10, c11, c12⟩ := after_checkout hS.steady hF he
  have hpath := hF.opens.path
  rw [hpath] at c12
  have hsp : ∀ k, k ≠ w.spaceDir → d'.space k = d.space k := by
    obtain ⟨_, _, _, _, _, d1, _, hC, _, _, hP, rfl⟩ := wpm_exec_ok (checkoutCmd_wp (f := f) hF.opens hk hF.mdir) he
    obtain ⟨b, _, hb⟩ := hP.space
    intro k hk
    show d1.space k = _
    rw [hb, hC.spaceDir, upd_ne _ _ hk]
  have hno : ¬ d.HasDiff u' := fun ⟨c, hc⟩ => by rw [c12.newLayer] at hc; cases hc
  have hx : Extends (fun _ => True) w.tree.abs w2.tree.abs := by rw [c11]; exact extends_add c10
  have hopen := sim_open hS s2
  have hlay : ∀ x ∈ s.next :: ls0, d.HasDiff x := sees_layers hS.steady s2 f5
  have hv : w.tree.abs.Has v := path_has c5 _ (path_head c5)
  have hlv : ∀ x ∈ ls, d.HasDiff x := fun x hx => hS.stored _ _ s3 x (path_has c5 x hx)
  rcases hS.all _ _ v s3 hv with hsn | hh
  rotate_left
  · exact absurd hh (hnh v kt c1)
  cases hsv : G.snap v with
  | none => exact absurd hsv hsn
  | some F =>
  obtain ⟨_, _, hsv'⟩ := hS.snap v F hsv
  obtain ⟨ls', k1, k2, k3⟩ := hsv' _ _ s3 hv
  have := Ws.path_unique k1 c5
  subst this
  refine ⟨_, g', .checkout (u := u') s1 s3 (by rw [← s2.id]; exact c1) hsv (sim_new hS hno), ?_⟩
  have hsee : Sees E d' (Path.abs cwd (lit ".")) { s with branch := sanitize (branchAfter key kt), on := v, next := u', files := F } w2 :=
    sees_new c6 c12.link c12.mnt (extends_path hx c5) (by rw [fresh_files c12 hlv, k2]) (c8.trans s2.repo) (c7.trans s2.id) c9 ⟨_, _, c12.mdir, rfl⟩
  rw [← c11]
  refine sim_place (s' := { s with branch := sanitize (branchAfter key kt), on := v, next := u', files := F }) hS c2 c3 c4 (fun x hx => fresh_content c12 hx) c12.user
    (fresh_others hS.steady c12)
    (fun k hk => ⟨s, w, s1, s2, hk, by rw [upd_self]; simp⟩) hsee (fun P1 t1 _ ht e => ?_) (fun k _ hk => hsp k ?_) (fun a h => ?_) (fun y hy => ?_) (fun y X hy => ?_) (fun y X hy => ?_)
    ?_
  · obtain ⟨w1, o1, _⟩ := hS.sees P1 t1 ht
    exact hno (by have := head_stored hS.steady (sees_head hS.steady o1); rw [e] at this; exact this)
  · rw [hF.opens.dir, s2.repo]; exact hk
  · rw [s3] at h; cases h; exact hx
  · rw [c11] at hy
    rcases add_has.1 hy with rfl | hy
    · exact Or.inr ⟨hno, Or.inl rfl⟩
    · exact Or.inl ⟨_, s3, hy⟩
  · rw [upd_ne _ _ (fun e => by rw [e, hopen] at hy; cases hy)]; exact hy
  · by_cases e : y = s.next
    · subst e
      rw [upd_self] at hy
      cases hy
      refine Or.inr ⟨extends_has hx (path_has f7 _ List.mem_cons_self), fresh_not_head hS.steady c2 s2 c6 c12, _, extends_path hx f7, ?_, fun x hx => ?_⟩
      · rw [map_content fun x hx => fresh_content c12 (hlay x hx), f6]
      · by_cases e : x = s.next
        · rw [e, upd_self]; simp
        · rw [upd_ne _ _ e]
          rcases List.mem_cons.1 hx with h | h
          · exact absurd h e
          · exact f4 x h
    · rw [upd_ne _ _ e] at hy; exact Or.inl hy
  · show upd _ _ _ v ≠ none
    rw [upd_ne _ _ (fun e => by rw [e, hopen] at hsv; cases hsv), hsv]; simp

theorem sim_clone {d d' : Disk} {g : Str → Option TS} {G : Git} (hS : Sim E d g G) {cwd source cwd2 path2 : Str} {w : OpenWs} {u p : UID} {T : TS}
    (hF : Found E d g cwd source w u p T) (hout2 : E.Outside (Path.abs cwd2 path2)) {w' : OpenWs}
    (he : Exec E f (cloneCmd E cwd source (Path.abs cwd2 path2)) d (.ok w') d') :
    ∃ G' g', Git.Step (.clone (Path.abs cwd source) (Path.abs cwd2 path2)) G G' ∧ Sim E d' g' G' := by
  obtain ⟨s, s1, s2, s3, rfl, rfl⟩ := sim_here hS hF
  obtain ⟨F, ls0, f1, f2, f3, f4, f5, f6, f7⟩ := sim_base hS s1 s2 s3
  obtain ⟨u', ls, g', w2, c2, c3, c4, c5, c6, c7, c8, c9, c10, c11, c12⟩ := after_clone hS.steady hF hout2 he
  have := Ws.path_unique c5 f2
  subst this
  have hsp : ∀ k, k ≠ w.spaceDir → d'.space k = d.space k := by
    obtain ⟨_, _, hC, _, _, _, hP⟩ := wpm_exec_ok (cloneCmd_wp (f := f) hF.opens (off_of_outside hout2)) he
    obtain ⟨b, _, hb⟩ := hP.space
    intro k hk
    rw [hb, hC.spaceDir, upd_ne _ _ hk]
  have hno : ¬ d.HasDiff u' := fun ⟨c, hc⟩ => by rw [c12.newLayer] at hc; cases hc
  have hx : Extends (fun _ => True) w.tree.abs w2.tree.abs := by rw [c11]; exact extends_add c10
  have hlay : ∀ x ∈ ls, d.HasDiff x := fun x hx => sees_layers hS.steady s2 f5 x (List.mem_cons_of_mem _ hx)
  refine ⟨_, g', .clone (i := w2.ws.id) (u := u') s1 s3 f1 (sim_new hS hno), ?_⟩
  have hsee : Sees E d' (Path.abs cwd2 path2) ⟨s.repo, w2.ws.id, s.branch, u', s.on, F⟩ w2 :=
    sees_new c6 c12.link c12.mnt (extends_path hx c5) (by rw [fresh_files c12 hlay, f3]) (c8.trans s2.repo) rfl (c9.trans s2.branch) ⟨_, _, c12.mdir, rfl⟩
  rw [← c11]
  refine sim_place (s' := ⟨s.repo, w2.ws.id, s.branch, u', s.on, F⟩) hS c2 c3 c4 (fun x hx => fresh_content c12 hx) c12.user (fresh_others hS.steady c12)
    (fun k hk => hk.elim) hsee (fun P1 t1 _ ht e => ?_) (fun k _ hk => hsp k ?_) (fun a h => ?_) (fun y hy => ?_) (fun y X hy => hy) (fun y X hy => Or.inl hy) ?_
  · obtain ⟨w1, o1, _⟩ := hS.sees P1 t1 ht
    exact hno (by have := head_stored hS.steady (sees_head hS.steady o1); rw [e] at this; exact this)
  · rw [hF.opens.dir, s2.repo]; exact hk
  · rw [s3] at h; cases h; exact hx
  · rw [c11] at hy
    rcases add_has.1 hy with rfl | hy
    · exact Or.inr ⟨hno, Or.inl rfl⟩
    · exact Or.inl ⟨_, s3, hy⟩
  · show G.snap s.on ≠ none
    rw [f1]; simp

theorem init_tree_has {root u' v : UID} {b : Str} (h : (((ATree.first root).add (some root) u' (fun _ => none) (fun _ => none)).setBranch b root).Has v) : v = u' ∨ v = root := by
  have h' : ((ATree.first root).add (some root) u' (fun _ => none) (fun _ => none)).Has v := h
  rcases add_has.1 h' with h | h
  · exact Or.inl h
  · have h2 : (ATree.empty.add none root (fun _ => none) (fun _ => none)).Has v := h
    rcases add_has.1 h2 with h | ⟨n, hn⟩
    · exact Or.inr h
    · cases hn

theorem sim_init {d d' : Disk} {g : Str → Option TS} {G : Git} (hS : Sim E d g G) {cwd path branch : Str} (hout : E.Outside (Path.abs cwd path)) {w' : OpenWs}
    (he : Exec E f (initCmd E (Path.abs cwd path) branch) d (.ok w') d') :
    ∃ G' g', Git.Step (.init (Path.abs cwd path) branch) G G' ∧ Sim E d' g' G' := by
  obtain ⟨root, u', dp, g', w2, c1, c2, c3, c4, c5, c6, _, c8, c9, c10, b, _, c11⟩ := after_init hS.steady hout he
  have hlit := c1.litter
  have hroot : ¬ d.HasDiff root := fun ⟨c, hc⟩ => by rw [c1.newLayer] at hc; cases hc
  have hno : ¬ d.HasDiff u' := fun ⟨c, hc⟩ => by
    have : dp.layer u' = d.layer u' := litter_layer_eq hlit (by rw [hc]; simp)
    rw [c10.newLayer, hc] at this; cases this
  have hsp0 : d.space w2.spaceID.base32 = none := by rw [← c6.dir]; exact c1.newSpace
  have hrepo : G.repo w2.spaceID = none := Option.eq_none_iff_forall_ne_some.2 fun a ha => hS.space _ _ ha hsp0
  have hdp : ∀ x, d.HasDiff x → dp.HasDiff x := fun x hx => litter_hasDiff hlit hx
  have hc : ∀ x, d.HasDiff x → d'.content x = d.content x := by
    intro x hx
    rw [fresh_content c10 (hdp x hx)]
    obtain ⟨c, hc⟩ := hx
    simp only [Disk.content, litter_layer_eq hlit (v := x) (by rw [hc]; simp)]
  have hpr : w2.tree.abs.Path root [root] := by
    refine .root (n := ⟨none, fun _ => none, fun _ => none⟩) ?_ rfl
    rw [c9]
    simp only [ATree.setBranch, ATree.add, ATree.first, ATree.setTag, upd_ne _ _ (Ne.symm c5), upd_self]
  have hcr : d'.content root = .empty := by
    rw [fresh_content c10 ⟨_, by rw [c1.layer]; exact upd_self _ _ _⟩]
    simp only [Disk.content, c1.layer, upd_self]; rfl
  have hfr : files ([root].map d'.content) = fun _ => none := by
    simp only [List.map_cons, List.map_nil, hcr]
    rw [files_blank blank_empty, files_none]
  have hfu : files ([u', root].map d'.content) = fun _ => none := by
    have hb : Blank (d'.content u') := by
      simp only [Disk.content, c10.layer, upd_self]
      exact blank_chown _
    rw [List.map_cons, files_blank hb]; exact hfr
  refine ⟨_, g', .init (r := w2.spaceID) (i := w2.ws.id) (root := root) (u := u') hrepo (sim_new hS hroot) (sim_new hS hno) c5, ?_⟩
  have hsee : Sees E d' (Path.abs cwd path) ⟨w2.spaceID, w2.ws.id, sanitize branch, u', root, fun _ => none⟩ w2 :=
    sees_new c6 c10.link c10.mnt hpr hfu.symm rfl rfl c8 ⟨_, _, c10.mdir, rfl⟩
  rw [← c9]
  have hsteadyp := steady_litter hS.steady hlit
  refine sim_place (old := fun _ => False) (s' := ⟨w2.spaceID, w2.ws.id, sanitize branch, u', root, fun _ => none⟩) hS c2 c3 c4 hc
    (fun P' hP => by rw [c10.user P' hP, hlit.user]) (fun k rc hk _ => ?_)
    (fun k hk => hk.elim) hsee (fun P1 t1 _ ht e => ?_) (fun k h0 hk => ?_) (fun a h => by rw [hrepo] at h; cases h) (fun y hy => ?_) (fun y X hy => ?_) (fun y X hy => ?_) ?_
  · have := fresh_others hsteadyp c10 k rc (by rw [hlit.info]; exact hk) (fun h => h)
    rw [hlit.info, hlit.mnt, c1.mdir] at this; exact this
  · obtain ⟨w1, o1, _⟩ := hS.sees P1 t1 ht
    exact hno (by have := head_stored hS.steady (sees_head hS.steady o1); rw [e] at this; exact this)
  · rw [c11, upd_ne _ _ (by rw [c6.dir]; exact hk)]
    rcases hlit.space k with e | ⟨e, _⟩
    · exact e
    · exact absurd e h0
  · rw [c9] at hy
    rcases init_tree_has hy with rfl | rfl
    · exact Or.inr ⟨hno, Or.inl rfl⟩
    · exact Or.inr ⟨hroot, Or.inr (by rw [upd_self]; simp)⟩
  · rw [upd_ne _ _ (fun e => hroot (by have := (hS.snap y X hy).2.1; rw [e] at this; exact this))]; exact hy
  · by_cases e : y = root
    · subst e
      rw [upd_self] at hy
      cases hy
      refine Or.inr ⟨path_has hpr _ List.mem_cons_self, ?_, _, hpr, hfr, fun x hx => ?_⟩
      · rintro ⟨k, rc, h1, h2⟩
        by_cases e : k = w2.mount.id.base32
        · subst e
          obtain ⟨r1, b1, _, _, _, b5, _⟩ := rec_of_opens c2 c6
          rw [h1] at b1
          have e := (rec_bytes_inj (Option.some.inj b1)).2.2.2.1
          exact c5 (by rw [← b5, ← e, h2])
        · rw [(c10.others k e (fun h => h)).2.1, hlit.info] at h1
          exact hroot (head_stored hS.steady ⟨k, rc, h1, h2⟩)
      · rw [List.mem_singleton] at hx
        rw [hx, upd_self]; simp
    · rw [upd_ne _ _ e] at hy; exact Or.inl hy
  · show upd _ _ _ root ≠ none
    rw [upd_self]; simp

theorem edits_names {w w' : Ws} {p : UID} {es : List Edit} {a a' : ATree} (h : EditsAll w p es a a') (hi : w'.id = w.id) (hb : w'.branch = w.branch) : EditsAll w' p es a a' := by
  induction h with
  | nil => exact .nil
  | cons h1 _ ih =>
    refine .cons ?_ ih
    cases h1 with
    | addBranch g1 g2 => rw [← hi] at g1 g2 ⊢; exact .addBranch g1 g2
    | deleteOwn g1 g2 => rw [← hi] at g2 ⊢; exact .deleteOwn (by rw [hb]; exact g1) g2
    | deleteGlobal g1 => exact .deleteGlobal g1
    | addTag g1 g2 => rw [← hi] at g1; exact .addTag g1 g2
    | deleteTag g1 => exact .deleteTag g1

theorem upd_same {α β : Type} [DecidableEq α] {f : α → β} {x : α} {y : β} (h : f x = y) : upd f x y = f := by
  funext z
  by_cases e : z = x
  · subst e; rw [upd_self, h]
  · rw [upd_ne _ _ e]

theorem sim_edit {d d' : Disk} {g : Str → Option TS} {G : Git} (hS : Sim E d g G) {cwd : Str} {es : List Edit} (hne : es ≠ []) (h8 : ∀ e ∈ es, e.Utf8)
    {w : OpenWs} {u p : UID} {T : TS} (hF : Found E d g cwd (lit ".") w u p T) {t : TS} (he : Exec E f (editCmd E cwd es) d (.ok t) d') :
    ∃ G' g', Git.Step (.edit (Path.abs cwd (lit ".")) es) G G' ∧ Sim E d' g' G' := by
  obtain ⟨s, s1, s2, s3, rfl, rfl⟩ := sim_here hS hF
  obtain ⟨hE, g', w2, b, c1, rfl, c3, ⟨i1, i2, i3⟩, c5, hc, c6, c7⟩ := after_edit_grew hS.steady hne hF he
  have e2 : w2.tree.abs = t.abs := by
    have := utf8_edits hE h8 (found_utf8 hF)
    rw [comesBack_named hc (utf8_named this), tidy_utf8 this]
  have hn : w2.tree.abs.node = w.tree.abs.node := by rw [e2]; exact (editsAll_node hE).1
  refine ⟨_, g', .edit s1 s3 (edits_names hE s2.id.symm s2.branch.symm), ?_⟩
  obtain ⟨ls, l1, l2, l3⟩ := s2.files
  have hx : Extends (fun _ => True) w.tree.abs w2.tree.abs := extends_node hn
  have hsee : Sees E (d.setSpace w.spaceDir (some (some b))) (Path.abs cwd (lit ".")) s w2 :=
    sees_new c3 (by rw [c5]; exact s2.link) (by rw [c5]; exact l1) (extends_path hx l2) l3 (i3.trans s2.repo) (i1.trans s2.id) (i2.trans s2.branch) (by rw [c5]; exact s2.mdir)
  rw [← e2]
  have := sim_place (old := fun _ => False) (S := G.snap) hS c1 c6 c7 (fun x _ => rfl) (fun _ _ => rfl) (fun _ _ _ _ => ⟨rfl, rfl, rfl⟩) (fun k hk => hk.elim) hsee
    (fun P1 t1 hP ht e => hP (hS.one _ _ _ _ ht s1 e)) (fun k _ hk => upd_ne _ _ (by rw [hF.opens.dir, s2.repo]; exact hk)) (fun a ha => by rw [s3] at ha; cases ha; exact hx)
    (fun v hv => Or.inl ⟨_, s3, by rw [ATree.Has, hn] at hv; exact hv⟩) (fun _ _ h => h) (fun _ _ h => Or.inl h) (hS.base _ _ s1)
  rwa [upd_same s1] at this

/-! ## Writing, refusals, other files -/

theorem sees_put {d : Disk} {g : Str → Option TS} {G : Git} (hS : Sim E d g G) {P : Str} {s : GWs} {w : OpenWs} (hs : G.ws P = some s) (hw : Sees E d P s w)
    (hr : G.repo s.repo = some w.tree.abs) {x : UID} (hx : Head E d x) (c : Content) :
    Sees E (d.put x c) P { s with files := if s.next = x then files ((s.next :: (d.mnt w.mount.id.base32).elim [] Mnt.lowers).map (d.put x c).content) else s.files } w := by
  obtain ⟨e1, e2, e3, e4, e5, e6⟩ := put_rest d x c
  obtain ⟨F, ls, f1, f2, f3, f4, f5, f6, f7⟩ := sim_base hS hs hw hr
  refine ⟨hw.abs, fun cwd path he => ?_, by rw [e5]; exact hw.link, hw.repo, hw.id, hw.branch, ⟨ls, by rw [e4]; exact f5, f2, ?_⟩, by rw [e2]; exact hw.mdir⟩
  · have o := hw.opens cwd path he
    exact ⟨o.out, by rw [e5]; exact o.link, o.path, by rw [e3]; exact o.info, o.mount, o.dir, by rw [e1]; exact o.tree, o.head, fun v hv => put_hasDiff (o.stored v hv)⟩
  · by_cases e : s.next = x
    · simp only [if_pos e, f5, Option.elim]
    · simp only [if_neg e]
      rw [f6, map_content]
      intro y hy
      have hne : y ≠ x := by
        rcases List.mem_cons.1 hy with rfl | hy
        · exact e
        · rintro rfl
          cases hq : G.snap y with
          | none => exact f4 y hy hq
          | some X => exact (hS.snap y X hq).1 hx
      rcases put_layer d x y c with h | ⟨h, _⟩
      · simp only [Disk.content, h]
      · exact absurd h hne

/-- Writing into a working layer: what the machine becomes. -/
theorem sim_put {d : Disk} {g : Str → Option TS} {G : Git} (hS : Sim E d g G) {x : UID} (hx : Head E d x) (c : Content) {W : Str → Option GWs}
    (hW : ∀ P s', W P = some s' → ∃ s w, G.ws P = some s ∧ Sees E d P s w ∧ G.repo s.repo = some w.tree.abs ∧
      s' = { s with files := if s.next = x then files ((s.next :: (d.mnt w.mount.id.base32).elim [] Mnt.lowers).map (d.put x c).content) else s.files })
    (hW' : ∀ P, G.ws P ≠ none → W P ≠ none) : Sim E (d.put x c) g ⟨G.repo, G.snap, W⟩ := by
  obtain ⟨e1, e2, e3, e4, e5, e6⟩ := put_rest d x c
  have hh : ∀ v, Head E (d.put x c) v ↔ Head E d v := fun v => by simp only [Head, e3]
  have hl : ∀ v, v ≠ x → (d.put x c).content v = d.content v := by
    intro v hv
    rcases put_layer d x v c with h | ⟨h, _⟩
    · simp only [Disk.content, h]
    · exact absurd h hv
  refine ⟨steady_put hS.steady x c, fun P s' h => ?_, fun P s' h => ?_, fun P P' s1 s2 h1 h2 e => ?_, fun P h => ?_, fun v F hv => ?_, fun r a v hr hv => ?_,
    fun r a hr v hv => put_hasDiff (hS.stored r a hr v hv), fun r a hr => by rw [e1]; exact hS.space r a hr, hS.apart⟩
  · obtain ⟨s, w, a1, a2, a3, rfl⟩ := hW P s' h
    exact ⟨w, sees_put hS a1 a2 a3 hx c, a3⟩
  · obtain ⟨s, w, a1, a2, a3, rfl⟩ := hW P s' h
    exact hS.base P s a1
  · obtain ⟨t1, _, a1, _, _, rfl⟩ := hW P s1 h1
    obtain ⟨t2, _, b1, _, _, rfl⟩ := hW P' s2 h2
    exact hS.one _ _ _ _ a1 b1 e
  · rw [e5] at h
    exact hW' P (hS.links P h)
  · obtain ⟨a1, a2, a3⟩ := hS.snap v F hv
    refine ⟨fun h => a1 ((hh v).1 h), put_hasDiff a2, fun r a hr hv => ?_⟩
    obtain ⟨ls, l1, l2, l3⟩ := a3 r a hr hv
    refine ⟨ls, l1, ?_, l3⟩
    rw [← l2, map_content]
    intro y hy
    refine hl y ?_
    rintro rfl
    cases hq : G.snap y with
    | none => exact l3 y hy hq
    | some X => exact (hS.snap y X hq).1 hx
  · rcases hS.all r a v hr hv with e | e
    · exact Or.inl e
    · exact Or.inr ((hh v).2 e)

theorem sim_write {d : Disk} {g : Str → Option TS} {G : Git} (hS : Sim E d g G) {cwd path n : Str} {m : Mnt} (c : Content)
    (hl : d.user (Path.abs cwd path) = .link (E.mountPath n)) (hm : d.mnt n = some m) :
    ∃ G' g', Git.Step (.write (Path.abs cwd path)) G G' ∧ Sim E (d.put m.upper c) g' G' := by
  obtain ⟨rc, r1, r2, _⟩ := hS.steady.mnt n m hm
  have hn := (backed_of_rec hS.steady r1).name
  have hws := hS.links (Path.abs cwd path) ⟨_, cwd, path, rc.mount, hl, rfl, by rw [hn]; exact leads_mountPath _ _ _⟩
  cases hs : G.ws (Path.abs cwd path) with
  | none => exact absurd hs hws
  | some s =>
  obtain ⟨w, a1, a2⟩ := hS.sees _ s hs
  have hnw : n = w.mount.id.base32 := by
    have := a1.link
    rw [hl] at this
    exact mountPath_inj (UEnt.link.inj this)
  have hup : s.next = m.upper := by
    obtain ⟨ls, l1, _⟩ := a1.files
    rw [hnw, l1] at hm
    cases hm; rfl
  refine ⟨_, g, .write (F := files ((s.next :: (d.mnt w.mount.id.base32).elim [] Mnt.lowers).map (d.put m.upper c).content)) hs, ?_⟩
  refine sim_put hS (mnt_head hS.steady hm) c (fun P s' h => ?_) (fun P h => ?_)
  · by_cases e : P = Path.abs cwd path
    · subst e
      rw [upd_self] at h
      cases h
      exact ⟨s, w, hs, a1, a2, by simp only [if_pos hup]⟩
    · rw [upd_ne _ _ e] at h
      obtain ⟨w', b1, b2⟩ := hS.sees _ s' h
      refine ⟨s', w', h, b1, b2, ?_⟩
      rw [if_neg fun e' => e (hS.one _ _ _ _ h hs (e'.trans hup.symm))]
  · by_cases e : P = Path.abs cwd path
    · subst e; rw [upd_self]; simp
    · rw [upd_ne _ _ e]; exact h

theorem sim_lost {d : Disk} {g : Str → Option TS} {G : Git} (hS : Sim E d g G) {n : Str} {m : Mnt} (c : Content)
    (hl : ∀ P, d.user P ≠ .link (E.mountPath n)) (hm : d.mnt n = some m) : Sim E (d.put m.upper c) g G := by
  obtain ⟨rc, r1, r2, _⟩ := hS.steady.mnt n m hm
  refine sim_put (W := G.ws) hS (mnt_head hS.steady hm) c (fun P s' h => ?_) (fun P h => h)
  obtain ⟨w', b1, b2⟩ := hS.sees _ s' h
  refine ⟨s', w', h, b1, b2, ?_⟩
  rw [if_neg]
  intro e
  obtain ⟨cwd, path, he⟩ := b1.abs
  obtain ⟨r0, a1, _, _, _, a5, _⟩ := rec_of_opens hS.steady (b1.opens cwd path he)
  have := hS.steady.heads _ _ _ _ r1 a1 (by rw [← r2, a5]; exact e.symm)
  exact hl P (by rw [this]; exact b1.link)

theorem sim_litter {d d' : Disk} {g : Str → Option TS} {G : Git} (hS : Sim E d g G) (hl : Litter d d') : Sim E d' g G := by
  have h' := steady_litter hS.steady hl
  have hG := grew_litter (E := E) (g := g) hl
  have hK : Kept g g := fun _ _ h => Or.inr h
  have hc : ∀ x, d.HasDiff x → d'.content x = d.content x := by
    intro x ⟨c, hc⟩
    simp only [Disk.content, litter_layer_eq hl (v := x) (by rw [hc]; simp)]
  have hsp : ∀ k, d.space k ≠ none → d'.space k = d.space k := by
    intro k hk
    rcases hl.space k with e | ⟨e, _⟩
    · exact e
    · exact absurd e hk
  have hh : ∀ v, Head E d' v ↔ Head E d v := fun v => by simp only [Head, hl.info]
  refine ⟨h', fun P s h => ?_, hS.base, hS.one, fun P h => hS.links P (by rw [← hl.user]; exact h), fun v F hv => ?_, fun r a v hr hv => ?_,
    fun r a hr v hv => hG.diff v (hS.stored r a hr v hv), fun r a hr => by rw [hsp _ (hS.space r a hr)]; exact hS.space r a hr, hS.apart⟩
  · obtain ⟨w, a1, a2⟩ := hS.sees P s h
    have hmd : d'.mdir w.mount.id.base32 = d.mdir w.mount.id.base32 := by
      obtain ⟨m, c, e, _⟩ := a1.mdir
      rcases hl.mdir w.mount.id.base32 with h | ⟨h, _⟩
      · exact h
      · rw [e] at h; cases h
    obtain ⟨w2, b1, b2⟩ := sees_kept hS.steady h' hG hK a1 (by rw [hl.user]) ⟨by rw [hl.mnt], by rw [hl.info], hmd⟩ hc
    exact ⟨w2, b1, by rw [b2 (hsp _ (hS.space _ _ a2))]; exact a2⟩
  · obtain ⟨a1, a2, a3⟩ := hS.snap v F hv
    refine ⟨fun h => a1 ((hh v).1 h), hG.diff v a2, fun r a hr hv => ?_⟩
    obtain ⟨ls, l1, l2, l3⟩ := a3 r a hr hv
    exact ⟨ls, l1, by rw [← l2, map_content fun x hx => hc x (hS.stored r a hr x (path_has l1 x hx))], l3⟩
  · rcases hS.all r a v hr hv with e | e
    · exact Or.inl e
    · exact Or.inr ((hh v).2 e)

theorem sim_user {d : Disk} {g : Str → Option TS} {G : Git} (hS : Sim E d g G) {us : Str → UEnt}
    (hus : ∀ P, LeadsIn E P (us P) ∨ LeadsIn E P (d.user P) → us P = d.user P) : Sim E { d with user := us } g G := by
  refine ⟨steady_user hS.steady us, fun P s h => ?_, hS.base, hS.one, fun P h => hS.links P (by rw [← hus P (Or.inl h)]; exact h), hS.snap, hS.all, hS.stored, hS.space, hS.apart⟩
  obtain ⟨w, a1, a2⟩ := hS.sees P s h
  obtain ⟨cwd, path, he⟩ := a1.abs
  have hP : us P = d.user P := hus P (Or.inr ⟨_, cwd, path, _, a1.link, he, leads_mountPath _ _ _⟩)
  refine ⟨w, ⟨a1.abs, fun cwd path he => ?_, by rw [← a1.link]; exact hP, a1.repo, a1.id, a1.branch, a1.files, a1.mdir⟩, a2⟩
  have o := a1.opens cwd path he
  exact ⟨o.out, ⟨_, (by rw [he]; exact hP.trans a1.link), leads_mountPath _ _ _⟩, o.path, o.info, o.mount, o.dir, o.tree, o.head, o.stored⟩

theorem refused_litter {d d' : Disk} {g : Str → Option TS} (hs : Steady E d g) (h : Refused E f d d') : Litter d d' := by
  cases h with
  | init hoff he hearly => exact ((wpm_exec (initCmd_wp hoff) he).1 hearly).1
  | clone hout hoff he hearly =>
    rcases run_opens hs hout he with ⟨rfl, _⟩ | ⟨w, u, p, T, hF⟩
    · exact litter_refl _
    · exact ((wpm_exec (cloneCmd_wp hF.opens hoff) he).1 hearly).1
  | commit hout he hearly =>
    rcases run_opens hs hout he with ⟨rfl, _⟩ | ⟨w, u, p, T, hF⟩
    · exact litter_refl _
    · exact ((wpm_exec (commitCmd_wp hF.opens hF.mdir) he).1 hearly).1
  | @checkout cwd key _ _ _ hout he hearly =>
    rcases run_opens hs hout he with ⟨rfl, _⟩ | ⟨w, u, p, T, hF⟩
    · exact litter_refl _
    · by_cases hk : PlainKey key
      · exact ((wpm_exec (checkoutCmd_wp hF.opens hk hF.mdir) he).1 hearly).1
      · rw [(checkout_odd hk he).1]
        exact litter_refl _
  | @edit cwd x _ _ e hout hio he =>
    rcases plain_of_refused he with hk | h
    rotate_left
    · rw [(opens_or_not hs hout h).1]
      exact litter_refl _
    rcases run_opens hs hout he with ⟨rfl, _⟩ | ⟨w, u, p, T, hF⟩
    · exact litter_refl _
    · rcases wpm_exec (editCmd_wp (f := f) hF.opens (es := [x]) (by simpa using hk)) he with ⟨es1, e1, b, h1, _, _, ⟨_, rfl⟩ | ⟨h2, _⟩, _⟩ | ⟨_, hh⟩
      · exact litter_refl _
      · obtain ⟨t, ht⟩ := h1
        cases es1 with
        | nil => exact absurd rfl h2
        | cons y ys => simp at ht
      · rw [hio] at hh; cases hh

/-! ## C91 -/

/-- One deed on the disk is one step of the machine. -/
theorem sim_step {d d' : Disk} {g : Str → Option TS} {G : Git} (hS : Sim E d g G) {a : Deed} (h : Doing E f a d d') : ∃ G' g', Git.Step a G G' ∧ Sim E d' g' G' := by
  cases h with
  | init hout he => exact sim_init hS hout he
  | clone hout hout2 he =>
    rcases run_opens hS.steady hout he with ⟨_, e, _⟩ | ⟨w, u, p, T, hF⟩
    · exact absurd rfl (e _)
    · exact sim_clone hS hF hout2 he
  | commit hout he =>
    rcases run_opens hS.steady hout he with ⟨_, e, _⟩ | ⟨w, u, p, T, hF⟩
    · exact absurd rfl (e _)
    · exact sim_commit hS hF he
  | checkout hout he hnh =>
    rcases run_opens hS.steady hout he with ⟨_, e, _⟩ | ⟨w, u, p, T, hF⟩
    · exact absurd rfl (e _)
    · exact sim_checkout hS hF he fun v kt hr => hnh w u p v kt (gets_of_opens hF.opens) hF.opens.head hr
  | edit hout hne h8 he =>
    rcases run_opens hS.steady hout he with ⟨_, e, _⟩ | ⟨w, u, p, T, hF⟩
    · exact absurd rfl (e _)
    · exact sim_edit hS hne h8 hF he
  | write hl hm => exact sim_write hS _ hl hm
  | lost hl hm => exact ⟨G, g, .idle, sim_lost hS _ hl hm⟩
  | files hus => exact ⟨G, g, .idle, sim_user hS hus⟩
  | refused hr => exact ⟨G, g, .idle, sim_litter hS (refused_litter hS.steady hr)⟩
  | look => exact ⟨G, g, .idle, hS⟩

theorem sees_as {o : Nat} {d : Disk} {P : Str} {s : GWs} {w : OpenWs} (h : Sees E d P s w) : Sees (E.as o) d P s w :=
  ⟨h.abs, fun c p he => ⟨(h.opens c p he).1, (h.opens c p he).2, (h.opens c p he).3, (h.opens c p he).4, (h.opens c p he).5, (h.opens c p he).6, (h.opens c p he).7,
    (h.opens c p he).8, (h.opens c p he).9⟩, h.link, h.repo, h.id, h.branch, h.files, h.mdir⟩

theorem sees_of_as {o : Nat} {d : Disk} {P : Str} {s : GWs} {w : OpenWs} (h : Sees (E.as o) d P s w) : Sees E d P s w :=
  ⟨h.abs, fun c p he => ⟨(h.opens c p he).1, (h.opens c p he).2, (h.opens c p he).3, (h.opens c p he).4, (h.opens c p he).5, (h.opens c p he).6, (h.opens c p he).7,
    (h.opens c p he).8, (h.opens c p he).9⟩, h.link, h.repo, h.id, h.branch, h.files, h.mdir⟩

theorem sim_as {o : Nat} {d : Disk} {g : Str → Option TS} {G : Git} (h : Sim E d g G) : Sim (E.as o) d g G :=
  ⟨steady_as h.steady, fun P s hs => by obtain ⟨w, h1, h2⟩ := h.sees P s hs; exact ⟨w, sees_as h1, h2⟩, h.base, h.one, h.links, h.snap, h.all, h.stored, h.space, h.apart⟩

theorem sim_of_as {o : Nat} {d : Disk} {g : Str → Option TS} {G : Git} (h : Sim (E.as o) d g G) : Sim E d g G :=
  ⟨steady_of_as h.steady, fun P s hs => by obtain ⟨w, h1, h2⟩ := h.sees P s hs; exact ⟨w, sees_of_as h1, h2⟩, h.base, h.one, h.links, h.snap, h.all, h.stored, h.space, h.apart⟩

theorem sim_untouched {d : Disk} (h : Untouched d) (hl : ∀ P, ¬ LeadsIn E P (d.user P)) : Sim E d (fun _ => none) Git.blank :=
  ⟨steady_untouched h, nofun, nofun, nofun, fun P h => absurd h (hl P), nofun, nofun, nofun, nofun, nofun⟩

theorem sim_shows {d : Disk} {g : Str → Option TS} {G : Git} (hS : Sim E d g G) : Shows E d G := by
  refine ⟨fun {P s} hs {cwd path} he => ?_, fun {cwd path w} hout hg hn => ?_⟩
  · obtain ⟨w, a1, a2⟩ := hS.sees P s hs
    have o := a1.opens cwd path he
    obtain ⟨ls, l1, l2, l3⟩ := a1.files
    exact ⟨w, gets_of_opens o, a1.repo, a1.id, a1.branch, o.head, a2, by rw [Disk.Mounted, l1]; simp, by rw [lists_mounted l1]; exact l3.symm⟩
  · obtain ⟨u, p, T, hF⟩ := found_of_gets hS.steady hout hg
    obtain ⟨t, e1, e2⟩ := hF.opens.link
    exact hS.links _ ⟨t, cwd, path, _, e1, rfl, e2⟩ hn

theorem sim_doings {d d' : Disk} {g : Str → Option TS} {G : Git} (hS : Sim E d g G) {as : List Deed} (h : Doings E f as d d') :
    ∃ G' g', Git.Run as G G' ∧ Sim E d' g' G' := by
  induction h with
  | nil => exact ⟨G, g, .nil, hS⟩
  | snoc _ h2 ih =>
    obtain ⟨G1, g1, r1, s1⟩ := ih hS
    obtain ⟨G2, g2, r2, s2⟩ := sim_step (sim_as s1) h2
    exact ⟨G2, g2, .snoc r1 r2, sim_of_as s2⟩

/-! ## What the program accepts -/

theorem sim_link {d : Disk} {P : Str} {s : GWs} {w : OpenWs} (hw : Sees E d P s w) : ∃ n m c, d.user P = .link (E.mountPath n) ∧ d.mdir n = some m ∧ m.merged = some c := by
  obtain ⟨m, c, h1, h2⟩ := hw.mdir
  exact ⟨_, m, c, hw.link, h1, h2⟩

theorem sim_commits {d d' : Disk} {g : Str → Option TS} {G : Git} (hS : Sim E d g G) {cwd : Str} (hout : E.Outside (Path.abs cwd (lit ".")))
    (hfit : ∀ s a ls, G.ws (Path.abs cwd (lit ".")) = some s → G.repo s.repo = some a → a.Path s.next ls → E.Fits ls.length)
    {ci : CommitInfo} {r : Res CErr (OpenWs × OpenWs)} (he : Exec E Faults.none (commitCmd E cwd ci) d r d') :
    (∃ x, r = .ok x) ↔ ∃ G', Git.Step (.commit (Path.abs cwd (lit ".")) ci.date ci.message) G G' := by
  constructor
  · rintro ⟨x, rfl⟩
    obtain ⟨G', _, h, _⟩ := sim_step hS (.commit hout he)
    exact ⟨G', h⟩
  · rintro ⟨G', h⟩
    cases h with
    | @commit _ _ _ _ s a u' h1 h2 h3 h4 =>
    obtain ⟨w, a1, a2⟩ := hS.sees _ s h1
    rw [h2] at a2; cases a2
    obtain ⟨T, hF⟩ := sees_found hS.steady a1 rfl
    have hfo : Follows w.tree.abs w.ws s.next := by
      have hon : w.ws.onBranch = s.full := by simp only [Ws.onBranch, GWs.full, a1.id, a1.branch]
      unfold Follows
      rw [hon]; exact h3
    have hp := wpm_exec (commitCmd_wp (ci := ci) hF.opens hF.mdir) he
    cases r with
    | ok x => exact ⟨x, rfl⟩
    | err e =>
      exfalso
      cases hee : e.early with
      | true =>
        rcases (hp.1 hee).2 with h | h
        · exact h ⟨rfl, rfl, hS.steady.tracked⟩
        · exact h hfo
      | false =>
        obtain ⟨_, _, h | ⟨w', u', ls', _, hP, ⟨_, h | h⟩ | ⟨d1, _, hw⟩⟩⟩ := hp.2 hee
        · cases h
        · exact h (hfit s _ ls' h1 h2 hP)
        · exact h (Or.inr (Or.inr (Or.inr (by rw [hF.opens.path]; exact sim_link a1))))
        · exact absurd hw.1 (by simp [Faults.none])
    | panic => exact hp.elim
    | diverge => exact hp.elim

theorem sim_checkouts {d d' : Disk} {g : Str → Option TS} {G : Git} (hS : Sim E d g G) {cwd key : Str} (hout : E.Outside (Path.abs cwd (lit ".")))
    (hk : PlainKey key) (hnh : ∀ w u p v kt, Gets E d cwd (lit ".") w → w.ws.HeadAt w.tree u p → Ws.Resolves w.tree.abs w.ws.id p key v kt → ¬ Head E d v)
    (hfit : ∀ s a v ls, G.ws (Path.abs cwd (lit ".")) = some s → G.repo s.repo = some a → a.Path v ls → E.Fits ls.length)
    {r : Res CErr (OpenWs × OpenWs)} (he : Exec E Faults.none (checkoutCmd E cwd key) d r d') :
    (∃ x, r = .ok x) ↔ ∃ G', Git.Step (.checkout (Path.abs cwd (lit ".")) key) G G' := by
  constructor
  · rintro ⟨x, rfl⟩
    obtain ⟨G', _, h, _⟩ := sim_step hS (.checkout hout he hnh)
    exact ⟨G', h⟩
  · rintro ⟨G', h⟩
    cases h with
    | @checkout _ _ _ s a v kt F u' h1 h2 h3 h4 h5 =>
    obtain ⟨w, a1, a2⟩ := hS.sees _ s h1
    rw [h2] at a2; cases a2
    obtain ⟨T, hF⟩ := sees_found hS.steady a1 rfl
    have hp := wpm_exec (checkoutCmd_wp hF.opens hk hF.mdir) he
    cases r with
    | ok x => exact ⟨x, rfl⟩
    | err e =>
      exfalso
      cases hee : e.early with
      | true =>
        rcases (hp.1 hee).2 with h | h
        · exact h ⟨rfl, rfl, hS.steady.tracked⟩
        · exact h v kt (by rw [a1.id]; exact h3)
      | false =>
        obtain ⟨_, v', kt', _, h | ⟨w', u', ls', _, hP, ⟨_, h | h⟩ | ⟨d1, _, hw⟩⟩⟩ := hp.2 hee
        · cases h
        · exact h (hfit s _ _ ls' h1 h2 hP)
        · exact h (Or.inr (Or.inr (Or.inr (by rw [hF.opens.path]; exact sim_link a1))))
        · exact absurd hw.1 (by simp [Faults.none])
    | panic => exact hp.elim
    | diverge => exact hp.elim

theorem sim_edits {d d' : Disk} {g : Str → Option TS} {G : Git} (hS : Sim E d g G) {cwd : Str} {x : Edit} (hout : E.Outside (Path.abs cwd (lit ".")))
    (hx : x.Plain) (h8 : x.Utf8) {r : Res CErr TS} (he : Exec E Faults.none (editCmd E cwd [x]) d r d') :
    (∃ t, r = .ok t) ↔ ∃ G', Git.Step (.edit (Path.abs cwd (lit ".")) [x]) G G' := by
  constructor
  · rintro ⟨t, rfl⟩
    obtain ⟨G', _, h, _⟩ := sim_step hS (.edit hout (List.cons_ne_nil _ _) (by simpa using h8) he)
    exact ⟨G', h⟩
  · rintro ⟨G', h⟩
    cases h with
    | @edit _ _ _ s a a' h1 h2 h3 =>
    obtain ⟨w, a1, a2⟩ := hS.sees _ s h1
    rw [h2] at a2; cases a2
    obtain ⟨T, hF⟩ := sees_found hS.steady a1 rfl
    have hE := edits_names (w' := w.ws) h3 a1.id a1.branch
    have hp := wpm_exec (editCmd_wp (es := [x]) hF.opens (by simpa using hx)) he
    cases r with
    | ok x => exact ⟨x, rfl⟩
    | err e =>
      exfalso
      rcases hp with ⟨es1, e1, b, ⟨t, ht⟩, hb, hno, _⟩ | ⟨_, hh⟩
      · cases es1 with
        | cons y ys => simp at ht
        | nil =>
          cases hb
          simp at ht
          obtain ⟨rfl, _⟩ := ht
          cases hE with
          | cons g1 _ => exact hno _ g1
      · cases hh
    | panic => exact hp.elim
    | diverge => exact hp.elim

theorem sim_clones {d d' : Disk} {g : Str → Option TS} {G : Git} (hS : Sim E d g G) {cwd source cwd2 path2 : Str} (hout : E.Outside (Path.abs cwd source))
    (hout2 : E.Outside (Path.abs cwd2 path2)) (hfree : d.user (Path.abs cwd2 path2) = .none ∨ d.user (Path.abs cwd2 path2) = .emptyDir)
    (hfit : ∀ s a ls, G.ws (Path.abs cwd source) = some s → G.repo s.repo = some a → a.Path s.on ls → E.Fits ls.length)
    {r : Res CErr OpenWs} (he : Exec E Faults.none (cloneCmd E cwd source (Path.abs cwd2 path2)) d r d') :
    (∃ x, r = .ok x) ↔ ∃ G', Git.Step (.clone (Path.abs cwd source) (Path.abs cwd2 path2)) G G' := by
  constructor
  · rintro ⟨x, rfl⟩
    obtain ⟨G', _, h, _⟩ := sim_step hS (.clone hout hout2 he)
    exact ⟨G', h⟩
  · rintro ⟨G', h⟩
    cases h with
    | @clone _ _ _ s a F i u' h1 h2 h3 h4 =>
    obtain ⟨w, a1, a2⟩ := hS.sees _ s h1
    rw [h2] at a2; cases a2
    obtain ⟨T, hF⟩ := sees_found hS.steady a1 rfl
    have hp := wpm_exec (cloneCmd_wp hF.opens (off_of_outside hout2)) he
    cases r with
    | ok x => exact ⟨x, rfl⟩
    | err e =>
      exfalso
      cases hee : e.early with
      | true => exact (hp.1 hee).2 ⟨rfl, rfl, hS.steady.tracked⟩
      | false =>
        obtain ⟨_, h | ⟨w', u', ls', _, hP, _, _, _, h | h⟩⟩ := hp.2 hee
        · cases h
        · exact h (hfit s _ ls' h1 h2 hP)
        · exact h (hfree.elim Or.inl fun h => Or.inr (Or.inl h))
    | panic => exact hp.elim
    | diverge => exact hp.elim

theorem sim_inits {d d' : Disk} {g : Str → Option TS} {G : Git} (hS : Sim E d g G) {cwd path branch : Str} (hout : E.Outside (Path.abs cwd path))
    (hfree : d.user (Path.abs cwd path) = .none ∨ d.user (Path.abs cwd path) = .emptyDir) (hfit : E.Fits 1)
    {r : Res CErr OpenWs} (he : Exec E Faults.none (initCmd E (Path.abs cwd path) branch) d r d') :
    (∃ x, r = .ok x) ∧ ∃ G', Git.Step (.init (Path.abs cwd path) branch) G G' := by
  have hok : ∃ x, r = .ok x := by
    have hp := wpm_exec (initCmd_wp (off_of_outside hout)) he
    cases r with
    | ok w => exact ⟨w, rfl⟩
    | err e =>
      exfalso
      cases hee : e.early with
      | true =>
        rcases (hp.1 hee).2 with h | h | ⟨t, h1, h2⟩
        · exact h ⟨rfl, rfl, hS.steady.tracked⟩
        · refine h ?_
          unfold FreeFor
          rcases hfree with h | h <;> rw [h] <;> trivial
        · rcases hfree with h | h <;> rw [h] at h1 <;> cases h1
      | false =>
        obtain ⟨_, h | ⟨_, _, _, _, _, _, _, _, h | h⟩⟩ := hp.2 hee
        · cases h
        · exact h hfit
        · exact h (hfree.elim Or.inl fun h => Or.inr (Or.inl h))
    | panic => exact hp.elim
    | diverge => exact hp.elim
  obtain ⟨x, rfl⟩ := hok
  obtain ⟨G', _, h, _⟩ := sim_step hS (.init hout he)
  exact ⟨⟨x, rfl⟩, G', h⟩

/-- The disk behaves like the machine as far as `R` relates them: it begins with nothing, what is seen is what the machine holds,
every deed of any user is the same step of the machine, and (when no call fails) exactly what the machine can do is accepted.
`E.Fits`: the mount options fit into a page (C38). -/
structure Simulates (E : Env) (R : Disk → Git → Prop) : Prop where
  start : ∀ {d}, Untouched d → (∀ P, ¬ LeadsIn E P (d.user P)) → R d Git.blank
  shows : ∀ {d G}, R d G → Shows E d G
  step : ∀ {d G a d' o f}, R d G → Doing (E.as o) f a d d' → ∃ G', Git.Step a G G' ∧ R d' G'
  commits : ∀ {d G cwd ci r d' o}, R d G → E.Outside (Path.abs cwd (lit ".")) →
    (∀ s a ls, G.ws (Path.abs cwd (lit ".")) = some s → G.repo s.repo = some a → a.Path s.next ls → E.Fits ls.length) →
    Exec (E.as o) Faults.none (commitCmd (E.as o) cwd ci) d r d' →
    ((∃ x, r = .ok x) ↔ ∃ G', Git.Step (.commit (Path.abs cwd (lit ".")) ci.date ci.message) G G')
  checkouts : ∀ {d G cwd key r d' o}, R d G → E.Outside (Path.abs cwd (lit ".")) → PlainKey key →
    (∀ w u p v kt, Gets E d cwd (lit ".") w → w.ws.HeadAt w.tree u p → Ws.Resolves w.tree.abs w.ws.id p key v kt → ¬ Head E d v) →
    (∀ s a v ls, G.ws (Path.abs cwd (lit ".")) = some s → G.repo s.repo = some a → a.Path v ls → E.Fits ls.length) →
    Exec (E.as o) Faults.none (checkoutCmd (E.as o) cwd key) d r d' →
    ((∃ x, r = .ok x) ↔ ∃ G', Git.Step (.checkout (Path.abs cwd (lit ".")) key) G G')
  edits : ∀ {d G cwd x r d' o}, R d G → E.Outside (Path.abs cwd (lit ".")) → x.Plain → x.Utf8 →
    Exec (E.as o) Faults.none (editCmd (E.as o) cwd [x]) d r d' →
    ((∃ t, r = .ok t) ↔ ∃ G', Git.Step (.edit (Path.abs cwd (lit ".")) [x]) G G')
  clones : ∀ {d G cwd source cwd2 path2 r d' o}, R d G → E.Outside (Path.abs cwd source) → E.Outside (Path.abs cwd2 path2) →
    (d.user (Path.abs cwd2 path2) = .none ∨ d.user (Path.abs cwd2 path2) = .emptyDir) →
    (∀ s a ls, G.ws (Path.abs cwd source) = some s → G.repo s.repo = some a → a.Path s.on ls → E.Fits ls.length) →
    Exec (E.as o) Faults.none (cloneCmd (E.as o) cwd source (Path.abs cwd2 path2)) d r d' →
    ((∃ x, r = .ok x) ↔ ∃ G', Git.Step (.clone (Path.abs cwd source) (Path.abs cwd2 path2)) G G')
  inits : ∀ {d G cwd path branch r d' o}, R d G → E.Outside (Path.abs cwd path) → (d.user (Path.abs cwd path) = .none ∨ d.user (Path.abs cwd path) = .emptyDir) → E.Fits 1 →
    Exec (E.as o) Faults.none (initCmd (E.as o) (Path.abs cwd path) branch) d r d' → (∃ x, r = .ok x) ∧ ∃ G', Git.Step (.init (Path.abs cwd path) branch) G G'

theorem gets_as {o : Nat} {d : Disk} {g : Str → Option TS} (hs : Steady E d g) {cwd path : Str} (hout : E.Outside (Path.abs cwd path)) {w : OpenWs}
    (h : Gets (E.as o) d cwd path w) : Gets E d cwd path w := by
  obtain ⟨u, p, T, hF⟩ := found_of_gets (steady_as (o := o) hs) hout h
  have q := hF.opens
  exact gets_of_opens ⟨q.1, q.2, q.3, q.4, q.5, q.6, q.7, q.8, q.9⟩

/-- **C91.** The program simulates the machine. -/
theorem C91_simulates (E : Env) : ∃ R, Simulates E R := by
  refine ⟨fun d G => ∃ g, Sim E d g G, ?_, ?_, ?_, ?_, ?_, ?_, ?_, ?_⟩
  · exact fun h hl => ⟨_, sim_untouched h hl⟩
  · exact fun ⟨_, h⟩ => sim_shows h
  · intro d G a d' o f ⟨g, h⟩ hd
    obtain ⟨G', g', h1, h2⟩ := sim_step (sim_as h) hd
    exact ⟨G', h1, g', sim_of_as h2⟩
  · intro d G cwd ci r d' o ⟨g, h⟩ hout hfit he
    exact sim_commits (sim_as (o := o) h) hout hfit he
  · intro d G cwd key r d' o ⟨g, h⟩ hout hk hnh hfit he
    exact sim_checkouts (sim_as (o := o) h) hout hk (fun w u p v kt hg => hnh w u p v kt (gets_as h.steady hout hg)) hfit he
  · intro d G cwd x r d' o ⟨g, h⟩ hout hx h8 he
    exact sim_edits (sim_as (o := o) h) hout hx h8 he
  · intro d G cwd source cwd2 path2 r d' o ⟨g, h⟩ hout hout2 hfree hfit he
    exact sim_clones (sim_as (o := o) h) hout hout2 hfree hfit he
  · intro d G cwd path branch r d' o ⟨g, h⟩ hout hfree hfit he
    exact sim_inits (sim_as (o := o) h) hout hfree hfit he

/-- **C91.** Whatever is done with the program, by any users in any order, starting from nothing, there is a history of the
machine with the same deeds, and what is seen on the disk is what the machine holds. -/
theorem C91_history {d0 d : Disk} (h0 : Untouched d0) (hl : ∀ P, ¬ LeadsIn E P (d0.user P)) {as : List Deed} (h : Doings E f as d0 d) :
    ∃ G, Git.Run as Git.blank G ∧ Shows E d G := by
  obtain ⟨G, g, h1, h2⟩ := sim_doings (sim_untouched h0 hl) h
  exact ⟨G, h1, sim_shows h2⟩

theorem Git.run_append {as bs : List Deed} {G G1 G2 : Git} (h : Git.Run as G G1) (h' : Git.Run bs G1 G2) : Git.Run (as ++ bs) G G2 := by
  induction h' with
  | nil => rw [List.append_nil]; exact h
  | snoc _ h2 ih => rw [← List.append_assoc]; exact .snoc (ih h) h2

/-- **C91**, step by step: a history goes on where it has stopped, so that what is seen at one time and at a later time are two
states of one history of the machine. -/
theorem C91_goes_on {d0 d d' : Disk} (h0 : Untouched d0) (hl : ∀ P, ¬ LeadsIn E P (d0.user P)) {as bs : List Deed} (h : Doings E f as d0 d) (h' : Doings E f bs d d') :
    ∃ G G', Git.Run as Git.blank G ∧ Shows E d G ∧ Git.Run bs G G' ∧ Shows E d' G' := by
  obtain ⟨G, g, h1, h2⟩ := sim_doings (sim_untouched h0 hl) h
  obtain ⟨G', g', h3, h4⟩ := sim_doings h2 h'
  exact ⟨G, G', h1, sim_shows h2, h3, sim_shows h4⟩

/-! ## What follows from the machine alone -/

theorem Git.good_run {as : List Deed} {G G' : Git} (h : G.Good) (hr : Git.Run as G G') : G'.Good := by
  induction hr with
  | nil => exact h
  | snoc _ h2 ih => exact Git.good_step (ih h) h2

theorem Git.snap_run {as : List Deed} {G G' : Git} (h : G.Good) (hr : Git.Run as G G') {v : UID} {F : Files} (hv : G.snap v = some F) : G'.snap v = some F := by
  induction hr with
  | nil => exact hv
  | snoc h1 h2 ih => exact Git.snap_step (Git.good_run h h1) h2 (ih h hv)

/-- **C91**, what is committed can be had back: after a commit of a workspace and whatever else, checking out that commit in any
workspace brings the files of the moment of the commit. -/
theorem C91_returns {d0 d d1 d2 d3 : Disk} (h0 : Untouched d0) (hl : ∀ P, ¬ LeadsIn E P (d0.user P)) {as bs : List Deed} {P date msg key : Str}
    (h1 : Doings E f as d0 d) {o o2 : Nat} (h2 : Doing (E.as o) f (.commit P date msg) d d1) (h3 : Doings E f bs d1 d2)
    {cwd path cwd2 : Str} (hP : Path.abs cwd path = P) {w w2 : OpenWs} {u p u2 p2 : UID} {kt : KeyType}
    (ho : E.Outside P) (hw : Gets E d cwd path w) (hu : w.ws.HeadAt w.tree u p)
    (ho2 : E.Outside (Path.abs cwd2 (lit "."))) (hw2 : Gets E d2 cwd2 (lit ".") w2) (hu2 : w2.ws.HeadAt w2.tree u2 p2)
    (hres : Ws.Resolves w2.tree.abs w2.ws.id p2 key u kt) (h4 : Doing (E.as o2) f (.checkout (Path.abs cwd2 (lit ".")) key) d2 d3) :
    ∃ w3, Gets E d3 cwd2 (lit ".") w3 ∧ d3.Mounted w3 ∧ d3.lists w3 = d.lists w := by
  obtain ⟨G, g, r1, s1⟩ := sim_doings (sim_untouched h0 hl) h1
  obtain ⟨G1, g1, r2, s2⟩ := sim_step (sim_as s1) h2
  obtain ⟨G2, g2, r3, s3⟩ := sim_doings (sim_of_as s2) h3
  obtain ⟨G3, g3, r4, s4⟩ := sim_step (sim_as s3) h4
  have good := Git.good_step (Git.good_run Git.good_blank r1) r2
  subst hP
  have hsnap : G1.snap u = some (d.lists w) := by
    obtain ⟨T, hF⟩ := gets_found s1.steady ho hw hu
    obtain ⟨s, k1, k2, k3, rfl, rfl⟩ := sim_here s1 hF
    obtain ⟨ls, l1, _, l3⟩ := k2.files
    cases r2 with
    | commit q1 q2 q3 q4 =>
      rw [k1] at q1
      cases q1
      show upd _ _ _ _ = _
      rw [upd_self, l3, ← lists_mounted l1]
  have hsnap2 := Git.snap_run good r3 hsnap
  obtain ⟨T2, hF2⟩ := gets_found s3.steady ho2 hw2 hu2
  obtain ⟨s, k1, k2, k3, rfl, rfl⟩ := sim_here s3 hF2
  cases r4 with
  | checkout q1 q2 q3 q4 q5 =>
    rw [k1] at q1
    cases q1
    rw [k3] at q2
    cases q2
    rw [← k2.id] at q3
    obtain ⟨rfl, rfl⟩ := Ws.resolves_unique q3 hres
    rw [hsnap2] at q4
    cases q4
    obtain ⟨w3, b1, b2, b3, b4, b5, b6, b7, b8⟩ := (sim_shows (sim_of_as s4)).ws (upd_self _ _ _) (cwd := cwd2) (path := lit ".") rfl
    exact ⟨w3, b1, b7, b8⟩

/-- **C91**, nobody else is disturbed: a deed changes no files and no place of any workspace but the one it names. -/
theorem C91_undisturbed {d0 d d1 : Disk} (h0 : Untouched d0) (hl : ∀ P, ¬ LeadsIn E P (d0.user P)) {as : List Deed} {a : Deed} (h1 : Doings E f as d0 d) {o : Nat}
    (h2 : Doing (E.as o) f a d d1) {cwd path : Str} (hP : a.at ≠ some (Path.abs cwd path)) (ho : E.Outside (Path.abs cwd path)) {w : OpenWs} {u p : UID}
    (hw : Gets E d cwd path w) (hu : w.ws.HeadAt w.tree u p) :
    ∃ w1, Gets E d1 cwd path w1 ∧ SameWs w w1 ∧ w1.ws.HeadAt w1.tree u p ∧ d1.Mounted w1 ∧ d1.lists w1 = d.lists w := by
  obtain ⟨G, g, r1, s1⟩ := sim_doings (sim_untouched h0 hl) h1
  obtain ⟨G1, g1, r2, s2⟩ := sim_step (sim_as s1) h2
  obtain ⟨T, hF⟩ := gets_found s1.steady ho hw hu
  obtain ⟨s, k1, k2, k3, rfl, rfl⟩ := sim_here s1 hF
  obtain ⟨ls, l1, _, l3⟩ := k2.files
  have e := Git.step_ws r2 hP
  rw [k1] at e
  obtain ⟨w3, b1, b2, b3, b4, b5, b6, b7, b8⟩ := (sim_shows (sim_of_as s2)).ws e (cwd := cwd) (path := path) rfl
  exact ⟨w3, b1, ⟨b3.trans k2.id.symm, b4.trans k2.branch.symm, b2.trans k2.repo.symm⟩, b5, b7, by rw [b8, l3, ← lists_mounted l1]⟩

end
end Verif
