import Verif.World.After
/-!
# Invariants of the saved trees

What one act does to the saved trees, and the induction over histories for statements about a single tree.
-/
set_option autoImplicit false
namespace Verif
open M TS Json

/-- The tree that `init` saves. -/
def ATree.initial (root u' id : UID) (branch : Str) : ATree :=
  ((ATree.first root).add (some root) u' (fun _ => none) (fun _ => none)).setBranch (id.base32 ++ lit "/" ++ branch) root

/-- The tree that an act saves in place of the tree `a`. `U` are the IDs that have been drawn. -/
inductive Turns (U : UID → Prop) : Act → ATree → ATree → Prop where
  | clone {cwd source target : Str} {a : ATree} {x p u' : UID} : Below a x p → a.Has p → ¬ a.Has u' →
      Turns U (.clone cwd source target) a (a.add (some p) u' (fun _ => none) (fun _ => none))
  | checkout {cwd key : Str} {a : ATree} {i x q p u' : UID} {kt : KeyType} : Below a x q → Ws.Resolves a i q key p kt → a.Has p → ¬ a.Has u' →
      Turns U (.checkout cwd key) a (a.add (some p) u' (fun _ => none) (fun _ => none))
  | commit {cwd : Str} {ci : CommitInfo} {a : ATree} {w : Ws} {u u' : UID} : U w.id → a.Has u → ¬ a.Has u' → Follows a w u →
      Turns U (.commit cwd ci) a (a.commit w.onBranch u u' ci.date ci.message)
  | edit {cwd : Str} {es es1 : List Edit} {a a' : ATree} {w : Ws} {x p : UID} : Below a x p → U w.id → es1 <+: es → EditsAll w p es1 a a' →
      Turns U (.edit cwd es) a a'

/-- What an act does to the saved trees and to the IDs of workspaces. -/
structure Stepped (E : Env) (act : Act) (d d' : Disk) : Prop where
  used : ∀ u ∈ d.used, u ∈ d'.used
  space : ∀ n b', d'.space n = some (some b') → d.space n = some (some b') ∨ ∃ T', Reach T' ∧ SavesAs E.sh T' b' ∧
    ((∃ path branch root u' id, act = .init path branch ∧ d.space n = none ∧ id ∈ d'.used ∧ u' ≠ root ∧ T'.abs = ATree.initial root u' id branch) ∨
     ∃ b s, d.space n = some (some b) ∧ spaceLoad (.ok b) = .ok s ∧ Turns (· ∈ d'.used) act s.abs T'.abs)
  ids : (∀ n (r : WsRec), d.info n = some (r.bytes E) → r.ws ∈ d.used) → ∀ n (r : WsRec), d'.info n = some (r.bytes E) → r.ws ∈ d'.used

section
variable {E : Env} {f : Faults}

theorem stepped_same {act : Act} {d d' : Disk} (h1 : ∀ u ∈ d.used, u ∈ d'.used) (h2 : ∀ n b, d'.space n = some (some b) → d.space n = some (some b))
    (h3 : ∀ n x, d'.info n = some x → d.info n = some x) : Stepped E act d d' :=
  ⟨h1, fun n b h => Or.inl (h2 n b h), fun h n r hr => h1 _ (h n r (h3 n _ hr))⟩

theorem stepped_litter {act : Act} {d d' : Disk} (h : Litter d d') : Stepped E act d d' := by
  refine stepped_same h.used (fun n b hb => ?_) (fun n x hx => by rwa [h.info] at hx)
  rcases h.space n with e | ⟨_, e⟩
  · rwa [e] at hb
  · rw [e] at hb; cases hb

theorem stepped_then {act : Act} {d d1 d2 : Disk} (h : Stepped E act d d1) (h1 : d2.used = d1.used) (h2 : d2.space = d1.space)
    (h3 : ∀ n x, d2.info n = some x → d1.info n = some x) : Stepped E act d d2 := by
  refine ⟨fun u hu => by rw [h1]; exact h.used u hu, fun n b hb => ?_, fun hi n r hr => by rw [h1]; exact h.ids hi n r (h3 n _ hr)⟩
  rw [h2] at hb
  rw [h1]; exact h.space n b hb

theorem stepped_removed {act : Act} {d d1 : Disk} {n : Str} (h : Stepped E act d d1) : Stepped E act d (removed n d1) := by
  refine stepped_then h rfl rfl fun k x hx => ?_
  by_cases hk : k = n
  · subst hk; simp [removed, Disk.setInfo] at hx
  · simpa only [removed, Disk.setInfo, Disk.setMdir, Disk.setMnt, upd_ne _ _ hk] using hx

theorem put_eqs (d : Disk) (v : UID) (c : Content) : (d.put v c).used = d.used ∧ (d.put v c).space = d.space ∧ (d.put v c).info = d.info := by
  unfold Disk.put; split <;> exact ⟨rfl, rfl, rfl⟩

theorem stepped_wiped {act : Act} {d d1 d2 : Disk} {n : Str} (h : Stepped E act d d1) (hw : Wiped f n d1 d2) : Stepped E act d d2 := by
  obtain ⟨_, mt, c, wk, _, _, rfl⟩ := hw
  obtain ⟨e1, e2, e3⟩ := put_eqs d1 mt.upper c
  exact stepped_then h e1 e2 fun k x hx => by rw [← e3]; exact hx

theorem stepped_late {act : Act} {d d' : Disk} {g : Str → Option TS} (h : Steady E d g) {cwd path : Str} {w w' : OpenWs} {u p u' : UID} {T : TS} {ls : List UID}
    (hF : Found E d g cwd path w u p T) (hL : Late E d d' w' w'.mount.id u' ls) (hdir : w'.spaceDir = w.spaceDir) (hr : Reach w'.tree)
    (ht : (∀ n (r : WsRec), d.info n = some (r.bytes E) → r.ws ∈ d.used) → w'.ws.id ∈ d'.used)
    (hx : Turns (· ∈ d'.used) act w.tree.abs w'.tree.abs) : Stepped E act d d' := by
  obtain ⟨b, hb, hs⟩ := hL.space
  refine ⟨hL.used, fun n b' hn => ?_, fun hi n r hr => ?_⟩
  · rw [hs] at hn
    by_cases hne : n = w'.spaceDir
    · subst hne
      rw [upd_self] at hn; cases hn
      obtain ⟨_, b0, _, _, h1, h2⟩ := hF.opens.tree
      exact Or.inr ⟨w'.tree, hr, hb, Or.inr ⟨b0, w.tree, by rw [hdir]; exact h1, h2, hx⟩⟩
    · rw [upd_ne _ _ hne] at hn; exact Or.inl hn
  · rw [hL.info] at hr
    by_cases hne : n = w'.mount.id.base32
    · subst hne
      rw [upd_self, Option.some.injEq, ← recOf_bytes] at hr
      rw [← (rec_bytes_inj hr).1]
      exact ht hi
    · rw [upd_ne _ _ hne] at hr
      exact hL.used _ (hi n r hr)

theorem ws_used {d : Disk} {g : Str → Option TS} (h : Steady E d g) {cwd path : Str} {w : OpenWs} {u p : UID} (ho : Opens E d cwd path w u p)
    (hi : ∀ n (r : WsRec), d.info n = some (r.bytes E) → r.ws ∈ d.used) : w.ws.id ∈ d.used := by
  obtain ⟨r, h1, h2, _⟩ := rec_of_opens h ho
  rw [← h2]; exact hi _ r h1

variable (hio : f.io = false)
include hio

theorem stepped_commit {d d' : Disk} {g : Str → Option TS} (h : Steady E d g) (hi : ∀ n (r : WsRec), d.info n = some (r.bytes E) → r.ws ∈ d.used)
    {cwd : Str} {ci : CommitInfo} {w : OpenWs} {u p : UID} {T : TS}
    (hF : Found E d g cwd (lit ".") w u p T) {r : Res CErr (OpenWs × OpenWs)} (he : Exec E f (commitCmd E cwd ci) d r d') :
    Stepped E (.commit cwd ci) d d' := by
  have hp := wpm_exec (commitCmd_wp (f := f) (ci := ci) hF.opens hF.mdir) he
  have hu := ws_used h hF.opens hi
  have key : ∀ {w' : OpenWs} {u' : UID} {ls : List UID} {dx : Disk}, Follows w.tree.abs w.ws u → Committed w u ci w' u' → Late E d dx w' w'.mount.id u' ls →
      Stepped E (.commit cwd ci) d dx := by
    intro w' u' ls dx hfo hC hL
    refine stepped_late h hF hL hC.spaceDir hC.reach (fun _ => by rw [hC.id]; exact hL.used _ hu) ?_
    rw [hC.tree]
    obtain ⟨_, n, hn, _⟩ := hF.opens.head
    exact .commit (hL.used _ hu) ⟨n, hn⟩ hC.newNode hfo
  cases r with
  | ok r =>
    obtain ⟨_, hfo, u', ls, d1, hC, _, _, hL, rfl⟩ := hp
    exact stepped_removed (key hfo hC (placed_late hL (space_ne hF hC.spaceDir)))
  | err e =>
    cases hee : e.early with
    | true => exact stepped_litter (hp.1 hee).1
    | false =>
      obtain ⟨hfo, _, hh⟩ := hp.2 hee
      rcases hh with hh | ⟨w', u', ls, hC, _, ⟨hL, _⟩ | ⟨d1, hL, hw⟩⟩
      · rw [hio] at hh; cases hh
      · exact key hfo hC hL
      · exact stepped_wiped (key hfo hC (placed_late hL (space_ne hF hC.spaceDir))) hw
  | panic => exact hp.elim
  | diverge => exact hp.elim

theorem stepped_checkout {d d' : Disk} {g : Str → Option TS} (h : Steady E d g) (hi : ∀ n (r : WsRec), d.info n = some (r.bytes E) → r.ws ∈ d.used)
    {cwd key : Str} (hk : PlainKey key) {w : OpenWs} {u p : UID} {T : TS}
    (hF : Found E d g cwd (lit ".") w u p T) {r : Res CErr (OpenWs × OpenWs)} (he : Exec E f (checkoutCmd E cwd key) d r d') :
    Stepped E (.checkout cwd key) d d' := by
  have hp := wpm_exec (checkoutCmd_wp (f := f) hF.opens hk hF.mdir) he
  have hu := ws_used h hF.opens hi
  have keyl : ∀ {w' : OpenWs} {u' v : UID} {kt : KeyType} {b : Str} {ls : List UID} {dx : Disk}, Ws.Resolves w.tree.abs w.ws.id p key v kt →
      CheckedOut w v b w' u' → w.tree.abs.Path v ls → Late E d dx w' w'.mount.id u' ls → Stepped E (.checkout cwd key) d dx := by
    intro w' u' v kt b ls dx hR hC hP hL
    refine stepped_late h hF hL hC.spaceDir hC.reach (fun _ => by rw [hC.id]; exact hL.used _ hu) ?_
    rw [hC.tree]
    exact .checkout (headAt_below hF.opens.head) hR (path_has hP v (by cases hP <;> simp)) hC.newNode
  cases r with
  | ok r =>
    obtain ⟨_, v, kt, u', ls, d1, hR, hC, hP, _, hL, rfl⟩ := hp
    exact stepped_removed (keyl hR hC hP (placed_late hL (space_ne hF hC.spaceDir)))
  | err e =>
    cases hee : e.early with
    | true => exact stepped_litter (hp.1 hee).1
    | false =>
      obtain ⟨_, v, kt, hR, hh⟩ := hp.2 hee
      rcases hh with hh | ⟨w', u', ls, hC, hP, ⟨hL, _⟩ | ⟨d1, hL, hw⟩⟩
      · rw [hio] at hh; cases hh
      · exact keyl hR hC hP hL
      · exact stepped_wiped (keyl hR hC hP (placed_late hL (space_ne hF hC.spaceDir))) hw
  | panic => exact hp.elim
  | diverge => exact hp.elim

theorem stepped_clone {d d' : Disk} {g : Str → Option TS} (h : Steady E d g) {cwd source target : Str} (hoff : E.Off target) {w : OpenWs} {u p : UID} {T : TS}
    (hF : Found E d g cwd source w u p T) {r : Res CErr OpenWs} (he : Exec E f (cloneCmd E cwd source target) d r d') :
    Stepped E (.clone cwd source target) d d' := by
  have hp := wpm_exec (cloneCmd_wp (f := f) hF.opens hoff) he
  have keyl : ∀ {w' : OpenWs} {u' : UID} {ls : List UID} {dx : Disk}, Cloned w p target w' u' → w.tree.abs.Path p ls → w'.ws.id ∈ dx.used →
      Late E d dx w' w'.mount.id u' ls → Stepped E (.clone cwd source target) d dx := by
    intro w' u' ls dx hC hP hid hL
    refine stepped_late h hF hL hC.spaceDir hC.reach (fun _ => hid) ?_
    rw [hC.tree]
    exact .clone (headAt_below hF.opens.head) (path_has hP p (by cases hP <;> simp)) hC.newNode
  cases r with
  | ok r =>
    obtain ⟨u', ls, hC, hP, _, hid, hL⟩ := hp
    exact keyl hC hP hid (placed_late hL (space_ne hF hC.spaceDir))
  | err e =>
    cases hee : e.early with
    | true => exact stepped_litter (hp.1 hee).1
    | false =>
      obtain ⟨_, hh⟩ := hp.2 hee
      rcases hh with hh | ⟨w', u', ls, hC, hP, _, hid, hL, _⟩
      · rw [hio] at hh; cases hh
      · exact keyl hC hP hid hL
  | panic => exact hp.elim
  | diverge => exact hp.elim

theorem stepped_edit {d d' : Disk} {g : Str → Option TS} (h : Steady E d g) (hi : ∀ n (r : WsRec), d.info n = some (r.bytes E) → r.ws ∈ d.used)
    {cwd : Str} {es : List Edit} (hes : ∀ e ∈ es, e.Plain) {w : OpenWs} {u p : UID} {T : TS}
    (hF : Found E d g cwd (lit ".") w u p T) {r : Res CErr TS} (he : Exec E f (editCmd E cwd es) d r d') : Stepped E (.edit cwd es) d d' := by
  have hp := wpm_exec (editCmd_wp (f := f) hF.opens hes) he
  have hu := ws_used h hF.opens hi
  have key : ∀ {a : ATree} {es' : List Edit}, es' <+: es → EditsAll w.ws p es' w.tree.abs a → Shelved E w.spaceDir a d d' → Stepped E (.edit cwd es) d d' := by
    rintro a es' hpre hE ⟨T', b, h1, rfl, h2, rfl⟩
    refine ⟨fun _ hx => hx, fun n b' hn => ?_, fun hi => hi⟩
    by_cases hne : n = w.spaceDir
    · subst hne
      simp only [Disk.setSpace, upd_self, Option.some.injEq] at hn
      subst hn
      obtain ⟨_, b0, _, _, g1, g2⟩ := hF.opens.tree
      exact Or.inr ⟨T', h1, h2, Or.inr ⟨b0, w.tree, g1, g2, .edit (headAt_below hF.opens.head) hu hpre hE⟩⟩
    · simp only [Disk.setSpace, upd_ne _ _ hne] at hn; exact Or.inl hn
  have same : d' = d → Stepped E (.edit cwd es) d d' := by rintro rfl; exact stepped_litter (litter_refl _)
  cases r with
  | ok r =>
    obtain ⟨_, hE, ⟨_, e⟩ | hh⟩ := hp
    · exact same e
    · exact key (List.prefix_refl _) hE hh
  | err e =>
    rcases hp with ⟨es1, e1, b, hpre, hE, _, ⟨_, e⟩ | ⟨_, hh⟩, _⟩ | hh
    · exact same e
    · exact key ((List.prefix_append _ _).trans hpre) hE hh
    · rw [hio] at hh; cases hh.2
  | panic => exact hp.elim
  | diverge => exact hp.elim

theorem stepped_init {d d' : Disk} {path branch : Str} (hoff : E.Off path)
    {r : Res CErr OpenWs} (he : Exec E f (initCmd E path branch) d r d') : Stepped E (.init path branch) d d' := by
  have hp := wpm_exec (initCmd_wp (f := f) hoff) he
  have key : ∀ {w' : OpenWs} {root u' : UID} {dp : Disk}, Founded d dp w'.spaceDir root → Inited path branch root w' u' → w'.ws.id ∈ d'.used →
      Late E dp d' w' w'.mount.id u' [root] → Stepped E (.init path branch) d d' := by
    intro w' root u' dp hFo hC hid hL
    obtain ⟨b, hb, hs⟩ := hL.space
    refine ⟨fun v hv => hL.used v (hFo.litter.used v hv), fun n b' hn => ?_, fun hi n r hr => ?_⟩
    · rw [hs] at hn
      by_cases hne : n = w'.spaceDir
      · subst hne
        rw [upd_self] at hn; cases hn
        exact Or.inr ⟨w'.tree, hC.reach, hb, Or.inl ⟨path, branch, root, u', w'.ws.id, rfl, hFo.newSpace, hid, hC.newNode, hC.tree⟩⟩
      · rw [upd_ne _ _ hne, hFo.space, upd_ne _ _ hne] at hn; exact Or.inl hn
    · rw [hL.info] at hr
      by_cases hne : n = w'.mount.id.base32
      · subst hne
        rw [upd_self, Option.some.injEq, ← recOf_bytes] at hr
        rw [← (rec_bytes_inj hr).1]
        exact hid
      · rw [upd_ne _ _ hne, hFo.litter.info] at hr
        exact hL.used _ (hFo.litter.used _ (hi n r hr))
  cases r with
  | ok r =>
    obtain ⟨_, root, u', dp, hFo, hC, _, hid, hL⟩ := hp
    exact key hFo hC hid (placed_late hL (by rw [hFo.space]; simp))
  | err e =>
    cases hee : e.early with
    | true => exact stepped_litter (hp.1 hee).1
    | false =>
      obtain ⟨_, hh⟩ := hp.2 hee
      rcases hh with hh | ⟨w', root, u', dp, hFo, hC, hid, hL, _⟩
      · rw [hio] at hh; cases hh
      · exact key hFo hC hid hL
  | panic => exact hp.elim
  | diverge => exact hp.elim

omit hio in
theorem stepped_prefix {cwd : Str} {es es1 : List Edit} (hp : es1 <+: es) {d d' : Disk} (h : Stepped E (.edit cwd es1) d d') : Stepped E (.edit cwd es) d d' := by
  refine ⟨h.used, fun n b' hb' => ?_, h.ids⟩
  rcases h.space n b' hb' with e | ⟨T', t1, t2, ⟨_, _, _, _, _, e, _⟩ | ⟨b, s, t3, t4, t5⟩⟩
  · exact Or.inl e
  · cases e
  · refine Or.inr ⟨T', t1, t2, Or.inr ⟨b, s, t3, t4, ?_⟩⟩
    cases t5 with
    | edit h1 h2 h3 h4 => exact .edit h1 h2 (h3.trans hp) h4

theorem stepped_happens {d d' : Disk} {g : Str → Option TS} {a : Act} (h : Steady E d g) (hi : ∀ n (r : WsRec), d.info n = some (r.bytes E) → r.ws ∈ d.used)
    (hpl : a.Plain E) (hh : Happens E f a d d') : Stepped E a d d' := by
  have same : d' = d → Stepped E a d d' := by rintro rfl; exact stepped_litter (litter_refl _)
  cases hh with
  | init he => exact stepped_init hio hpl he
  | clone he =>
    rcases run_opens h hpl.1 he with ⟨e, _⟩ | ⟨w, u, p, T, hF⟩
    · exact same e
    · exact stepped_clone hio h hpl.2 hF he
  | commit he =>
    rcases run_opens h hpl he with ⟨e, _⟩ | ⟨w, u, p, T, hF⟩
    · exact same e
    · exact stepped_commit hio h hi hF he
  | @checkout _ key _ _ _ he =>
    rcases run_opens h hpl he with ⟨e, _⟩ | ⟨w, u, p, T, hF⟩
    · exact same e
    · by_cases hk : PlainKey key
      · exact stepped_checkout hio h hi hk hF he
      · exact same (checkout_odd hk he).1
  | edit he =>
    obtain ⟨es1, r1, hpre, hes, he⟩ := edit_prefix he
    rcases run_opens h hpl he with ⟨e, _⟩ | ⟨w, u, p, T, hF⟩
    · exact same e
    · exact stepped_prefix hpre (stepped_edit hio h hi hes hF he)
  | @write _ m c _ hm =>
    obtain ⟨e1, e2, e3⟩ := put_eqs d m.upper c
    exact stepped_same (fun u hu => by rw [e1]; exact hu) (fun n b hb => by rw [← e2]; exact hb) fun n x hx => by rw [← e3]; exact hx
  | stray => exact stepped_same (fun _ hu => hu) (fun _ _ hb => hb) fun _ _ hx => hx
  | files => exact stepped_same (fun _ hu => hu) (fun _ _ hb => hb) fun _ _ hx => hx
  | reboot => exact stepped_same (fun _ hu => hu) (fun _ _ hb => hb) fun _ _ hx => hx

omit hio

/-- Any number of acts, each of which satisfies `A`. -/
inductive PastOf (E : Env) (f : Faults) (A : Act → Prop) : Disk → Disk → Prop where
  | refl {d : Disk} : PastOf E f A d d
  | step {d d1 d2 : Disk} {a : Act} {o : Nat} : PastOf E f A d d1 → A a → a.Plain E → Happens (E.as o) f a d1 d2 → PastOf E f A d d2

theorem past_of_pastOf {A : Act → Prop} {d d' : Disk} (h : PastOf E f A d d') : Past E f d d' := by
  induction h with
  | refl => exact .refl
  | step _ _ h1 h2 ih => exact .step ih h1 h2

theorem pastOf_of_past {d d' : Disk} (h : Past E f d d') : PastOf E f (fun _ => True) d d' := by
  induction h with
  | refl => exact .refl
  | step _ h1 h2 ih => exact .step ih trivial h1 h2

/-- The trees that can be read satisfy `Q`. -/
def AllTrees (Q : (UID → Prop) → ATree → Prop) (d : Disk) : Prop :=
  ∀ n b s, d.space n = some (some b) → spaceLoad (.ok b) = .ok s → Q (· ∈ d.used) s.abs

/-- Any number of acts, each of which satisfies `A` on the disk on which it happens. -/
inductive PastIf (E : Env) (f : Faults) (A : Disk → Act → Prop) : Disk → Disk → Prop where
  | refl {d : Disk} : PastIf E f A d d
  | step {d d1 d2 : Disk} {a : Act} {o : Nat} : PastIf E f A d d1 → A d1 a → a.Plain E → Happens (E.as o) f a d1 d2 → PastIf E f A d d2

theorem past_of_pastIf {A : Disk → Act → Prop} {d d' : Disk} (h : PastIf E f A d d') : Past E f d d' := by
  induction h with
  | refl => exact .refl
  | step _ _ h1 h2 ih => exact .step ih h1 h2

theorem pastIf_of_pastOf {A : Act → Prop} {d d' : Disk} (h : PastOf E f A d d') : PastIf E f (fun _ => A) d d' := by
  induction h with
  | refl => exact .refl
  | step _ h0 h1 h2 ih => exact .step ih h0 h1 h2

/-- `Q` survives saving, loading and all acts that satisfy `A`. -/
structure KeepsIf (A : Disk → Act → Prop) (Q : (UID → Prop) → ATree → Prop) : Prop where
  mono : ∀ {U U' : UID → Prop} {a : ATree}, (∀ u, U u → U' u) → Q U a → Q U' a
  back : ∀ {U : UID → Prop} {a a' : ATree}, ComesBack a a' → Q U a → Q U a'
  init : ∀ {d : Disk} {U : UID → Prop} {path branch : Str} {root u' id : UID}, A d (.init path branch) → U id → u' ≠ root → Q U (ATree.initial root u' id branch)
  turn : ∀ {d : Disk} {U : UID → Prop} {act : Act} {n b : Str} {s : TS} {a' : ATree}, A d act → d.space n = some (some b) → spaceLoad (.ok b) = .ok s →
    Q U s.abs → Turns U act s.abs a' → Q U a'

theorem allTrees_stepIf {A : Disk → Act → Prop} {Q : (UID → Prop) → ATree → Prop} (hK : KeepsIf A Q) {act : Act} {d d' : Disk} (ha : A d act) (h : AllTrees Q d)
    (hs : Stepped E act d d') : AllTrees Q d' := by
  intro n b' s' hb' hl'
  rcases hs.space n b' hb' with hb | ⟨T', hr, hsv, hc⟩
  · exact hK.mono hs.used (h n b' s' hb hl')
  · have hQ : Q (· ∈ d'.used) T'.abs := by
      rcases hc with ⟨path, branch, root, u', id, rfl, _, h1, h2, h3⟩ | ⟨b, s, h1, h2, h3⟩
      · rw [h3]; exact hK.init ha h1 h2
      · exact hK.turn ha h1 h2 (hK.mono hs.used (h n b s h1 h2)) h3
    by_cases hS : T'.abs.Shallow
    · obtain ⟨s2, e1, _, e2⟩ := (load_saved hr hsv).1 hS
      rw [hl'] at e1; cases e1
      exact hK.back e2 hQ
    · rw [(load_saved hr hsv).2 hS] at hl'; cases hl'

/-- What every act keeps holds in every history. -/
theorem allTrees_fromIf {A : Disk → Act → Prop} {Q : (UID → Prop) → ATree → Prop} (hK : KeepsIf A Q) (hio : f.io = false) {d d' : Disk} {g0 : Str → Option TS}
    (h0 : Steady E d g0) (hi : ∀ n (r : WsRec), d.info n = some (r.bytes E) → r.ws ∈ d.used) (hQ : AllTrees Q d)
    (hp : PastIf E f A d d') : (∀ n (r : WsRec), d'.info n = some (r.bytes E) → r.ws ∈ d'.used) ∧ AllTrees Q d' := by
  induction hp with
  | refl => exact ⟨hi, hQ⟩
  | @step _ _ _ o hpast ha hpl hh ih =>
    obtain ⟨g, hs, _⟩ := steady_past hio h0 (past_of_pastIf hpast)
    have := stepped_happens (E := E.as o) hio (steady_as hs) ih.1 (plain_as hpl) hh
    exact ⟨this.ids ih.1, allTrees_stepIf hK ha ih.2 this⟩

theorem allTrees_pastIf {A : Disk → Act → Prop} {Q : (UID → Prop) → ATree → Prop} (hK : KeepsIf A Q) (hio : f.io = false) {d d' : Disk} (h0 : Untouched d)
    (hp : PastIf E f A d d') : (∀ n (r : WsRec), d'.info n = some (r.bytes E) → r.ws ∈ d'.used) ∧ AllTrees Q d' :=
  allTrees_fromIf hK hio (steady_untouched h0) (fun n r hr => by rw [h0.info] at hr; cases hr) (fun n b s hb => by rw [h0.space] at hb; cases hb) hp

/-- The same for conditions that do not depend on the disk. -/
structure Keeps (A : Act → Prop) (Q : (UID → Prop) → ATree → Prop) : Prop where
  mono : ∀ {U U' : UID → Prop} {a : ATree}, (∀ u, U u → U' u) → Q U a → Q U' a
  back : ∀ {U : UID → Prop} {a a' : ATree}, ComesBack a a' → Q U a → Q U a'
  init : ∀ {U : UID → Prop} {path branch : Str} {root u' id : UID}, A (.init path branch) → U id → u' ≠ root → Q U (ATree.initial root u' id branch)
  turn : ∀ {U : UID → Prop} {act : Act} {a a' : ATree}, A act → Q U a → Turns U act a a' → Q U a'

theorem allTrees_past {A : Act → Prop} {Q : (UID → Prop) → ATree → Prop} (hK : Keeps A Q) (hio : f.io = false) {d d' : Disk} (h0 : Untouched d)
    (hp : PastOf E f A d d') : (∀ n (r : WsRec), d'.info n = some (r.bytes E) → r.ws ∈ d'.used) ∧ AllTrees Q d' :=
  allTrees_pastIf (Q := Q) ⟨hK.mono, hK.back, hK.init, fun h1 _ _ h2 h3 => hK.turn h1 h2 h3⟩ hio h0 (pastIf_of_pastOf hp)

theorem allTrees_from {A : Act → Prop} {Q : (UID → Prop) → ATree → Prop} (hK : Keeps A Q) (hio : f.io = false) {d d' : Disk} {g0 : Str → Option TS}
    (h0 : Steady E d g0) (hi : ∀ n (r : WsRec), d.info n = some (r.bytes E) → r.ws ∈ d.used) (hQ : AllTrees Q d)
    (hp : PastOf E f A d d') : (∀ n (r : WsRec), d'.info n = some (r.bytes E) → r.ws ∈ d'.used) ∧ AllTrees Q d' :=
  allTrees_fromIf (Q := Q) ⟨hK.mono, hK.back, hK.init, fun h1 _ _ h2 h3 => hK.turn h1 h2 h3⟩ hio h0 hi hQ (pastIf_of_pastOf hp)

end
end Verif
