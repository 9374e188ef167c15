import Verif.Props.Moment
import Verif.Props.Overlap
import Verif.Props.LogWorld
import Verif.World.Together
/-!
# A listing beside two commands (C103)

A listing reads the link and the record; then a commit and after it another command run; then the listing reads the history. It shows the old working layer with a history that
was never there together with it.
-/
set_option autoImplicit false
namespace Verif
open M TS Json

section
variable {E : Env} {α β : Type}

theorem ran_front {c : Cmd} {k : c.Ans → Prog α} {d d1 e : Disk} {x : c.Ans} {q : Prog α} (hs : Step E Faults.none c d x d1) (h : Runs E (k x) d1 q e) : Runs E (.op c k) d q e := by
  induction h with
  | refl => exact .step (.refl _ _) hs
  | step _ hs' ih => exact .step (ih hs) hs'

theorem ran_trans {p q r : Prog α} {d e l : Disk} (h : Runs E p d q e) (h' : Runs E q e r l) : Runs E p d r l := by
  induction h' with
  | refl => exact h
  | step _ hs ih => exact .step (ih h) hs

theorem ran_exec {p : Prog α} {d e : Disk} {a : α} (h : Exec E Faults.none p d a e) : Runs E p d (.ret a) e := by
  induction h with
  | ret => exact .refl _ _
  | op hs _ ih => exact ran_front hs ih

theorem ran_bind {x : M α} {g : α → M β} {d e : Disk} {a : α} (h : Exec E Faults.none x d (.ok a) e) : Runs E (M.bind x g) d (g a) e := by
  obtain ⟨r, hr⟩ : ∃ r, r = Res.ok (ε := CErr) a := ⟨_, rfl⟩
  rw [← hr] at h
  induction h with
  | ret r d => subst hr; exact .refl _ _
  | op hs _ ih => exact ran_front hs (ih hr)

theorem ran_stops {p q : Prog α} {d e : Disk} (h : Runs E p d q e) : Stops E Faults.none p d e := by
  suffices H : ∀ l, Stops E Faults.none q e l → Stops E Faults.none p d l from H _ (.here _ _)
  induction h with
  | refl => exact fun _ h => h
  | step _ hs ih => exact fun l hl => ih l (.op hs hl)

theorem alongside_runs {ι : Type} [DecidableEq ι] {F : ι → Env} {f : ι → Faults} {ps qs : ι → Prog α} {d e e' : Disk} {ms : List Disk} {p q : Prog α} {i : ι} (hF : F i = E)
    (hf : f i = Faults.none) (h : Alongside F f ps d ms qs e) (hp : qs i = p) (hr : Runs E p e q e') :
    ∃ ms', Alongside F f ps d (ms' ++ ms) (upd qs i q) e' ∧ ∀ l ∈ ms', Stops E Faults.none p e l := by
  induction hr with
  | refl =>
    refine ⟨[], ?_, nofun⟩
    have : upd qs i p = qs := by
      funext j
      by_cases hj : j = i
      · subst hj; rw [upd_self, hp]
      · rw [upd_ne _ _ hj]
    rw [this]; exact h
  | @step c k d0 e e' x hr hs ih =>
    obtain ⟨ms', h1, h2⟩ := ih h
    refine ⟨e' :: ms', ?_, fun l hl => ?_⟩
    · have := Alongside.step h1 (upd_self _ _ _) (by rw [hF, hf]; exact hs)
      rwa [show upd (upd qs i (.op c k)) i (k x) = upd qs i (k x) by
        funext j
        by_cases hj : j = i
        · subst hj; rw [upd_self, upd_self]
        · rw [upd_ne _ _ hj, upd_ne _ _ hj, upd_ne _ _ hj]] at this
    · rcases List.mem_cons.1 hl with rfl | hl
      · exact ran_stops (.step hr hs)
      · exact h2 l hl

/-- A listing that has read the link and the record, and what it shows if it reads the tree file then. -/
theorem look_split {d : Disk} {cwd : Str} {w : OpenWs} (hout : E.Outside (Path.abs cwd (lit "."))) (hg : Gets E d cwd (lit ".") w) :
    ∃ (q : M Out) (h : UID), Runs E ((Command.look cwd).prog E) d q d ∧ w.tree.get h = some w.ws.head ∧
      ∀ d2 tb s r, d2.space w.spaceDir = some (some tb) → spaceLoad (.ok tb) = .ok s → s.get h = some r →
        Exec E Faults.none q d2 (.ok (.read { w with tree := s, ws := { w.ws with head := r } })) d2 := by
  obtain ⟨v, b, tb, hO, hT⟩ := gets_three hout hg
  obtain ⟨info, h, h4, h5, h6, h7, h8, h9, h10, h11⟩ := hO.record
  have run : ∀ (g : OpenWs → M Out), ∃ q : M Out, Runs E (M.bind (getWorkspace E cwd (lit ".")) g) d q d ∧
      ∀ d2 tb s r a, d2.space w.spaceDir = some (some tb) → spaceLoad (.ok tb) = .ok s → s.get h = some r →
        Exec E Faults.none (g { w with tree := s, ws := { w.ws with head := r } }) d2 a d2 → Exec E Faults.none q d2 a d2 := by
    intro g
    have hd : ∀ {α β : Type} (x : M α) (k : α → M β), x >>= k = M.bind x k := fun _ _ => rfl
    unfold getWorkspace
    simp only [hd]
    refine ⟨?q, ?_, ?_⟩
    rotate_left
    · rw [mbind_assoc]
      refine ran_trans (ran_bind (exec_linkOf hT.user)) ?_
      rw [mbind_assoc]
      refine ran_trans (ran_bind (exec_lift hO.link)) ?_
      rw [mbind_assoc]
      refine ran_trans (ran_bind (a := info) (e := d) ?_) ?_
      · exact exec_ok (a := .ok b) (exec_ask ⟨rfl, hT.info⟩) (exec_lift (by rw [h4]))
      rw [mbind_assoc]
      refine ran_trans (ran_bind (exec_lift h5)) ?_
      rw [mbind_assoc]
      refine ran_trans (ran_bind (exec_lift h6)) ?_
      exact .refl _ _
    · intro d2 tb s r a k1 k2 k3 k4
      rw [mbind_assoc]
      refine exec_ok (d1 := d2) (a := .ok tb) (exec_ask ⟨rfl, by show d2.space info.spaceID = _; rw [h7]; exact k1⟩) ?_
      rw [mbind_assoc]
      refine exec_ok (exec_lift k2) ?_
      rw [mbind_assoc]
      refine exec_ok (exec_lift h10) ?_
      simp only [k3]
      refine exec_ok (a := ⟨s, w.spaceID, info.spaceID, ⟨w.mount.id, info.mountID, none⟩, ⟨w.ws.id, Path.abs cwd (lit "."), r, info.branch⟩⟩) (.ret _ _) ?_
      have : ({ w with tree := s, ws := { w.ws with head := r } } : OpenWs) = ⟨s, w.spaceID, info.spaceID, ⟨w.mount.id, info.mountID, none⟩, ⟨w.ws.id, Path.abs cwd (lit "."), r, info.branch⟩⟩ := by
        rw [h7, h8, h9, ← hO.path, ← hO.mount]
      rw [← this]; exact k4
  obtain ⟨q, h1, h2⟩ := run fun w => Prog.ret (.ok (.read w))
  exact ⟨q, h, h1, h11, fun d2 tb s r k1 k2 k3 => h2 d2 tb s r _ k1 k2 k3 (.ret _ _)⟩

theorem ans_nonempty (c : Cmd) : Nonempty c.Ans := by
  cases c <;> first | exact ⟨true⟩ | exact ⟨(⟨List.replicate 16 0, rfl⟩ : UID)⟩ | exact ⟨(.fail : MkdirAns)⟩ | exact ⟨(.fail : RmAns)⟩ | exact ⟨(.notExist : ReadRes)⟩ | exact ⟨([] : Str)⟩ | exact ⟨(none : Option Str)⟩

theorem ph_le {α : Type} {p : Prog α} {m : Nat} : ∀ {n : Nat}, Ph n m p → n ≤ m := by
  induction p with
  | ret => exact fun h => h
  | op c k ih =>
    intro n h
    obtain ⟨x⟩ := ans_nonempty c
    have := ih x (h.2 x)
    cases hc : c.rank with
    | none => rwa [Cmd.next, hc] at this
    | some j =>
      have h1 := h.1 j hc
      rw [Cmd.next, hc] at this
      exact Nat.le_trans h1 this

theorem ran_onlyReads {α : Type} {p q : Prog α} {d e : Disk} (h : Runs E p d q e) (hp : OnlyReads p) : OnlyReads q := by
  induction h with
  | refl => exact hp
  | step _ hs ih => cases ih with | op _ h2 => exact h2 _

/-- Programs that change only the history leave the links and the records. -/
theorem stops_tree {α : Type} {f : Faults} {p : Prog α} {d l : Disk} (hp : Ph 0 0 p) (h : Stops E f p d l) : l.user = d.user ∧ l.info = d.info := by
  suffices H : ∀ n, n ≤ 0 → Ph n 0 p → l.user = d.user ∧ l.info = d.info from H 0 (Nat.le_refl _) hp
  clear hp
  induction h with
  | here => exact fun _ _ _ => ⟨rfl, rfl⟩
  | @op c k d d1 d2 x hs _ ih =>
    intro n hn hp
    have hn0 : n = 0 := by omega
    subst hn0
    have hnx : c.next 0 ≤ 0 := ph_le (hp.2 x)
    obtain ⟨a, b⟩ := ih _ hnx (hp.2 x)
    rcases step_change hs with h | ⟨m, hm, h⟩
    · exact ⟨a.trans h.user, b.trans h.info⟩
    · have : m = 0 := by
        have : c.next 0 = m := by rw [Cmd.next, hm]; rfl
        omega
      subst this
      exact ⟨a.trans h.1, b.trans h.2⟩

/-- A listing, a commit and a new tag in the same workspace. -/
def trio (cwd : Str) (ci : CommitInfo) (name ref : Str) : Fin 3 → Command
  | 0 => .look cwd
  | 1 => .commit cwd ci
  | 2 => .edit cwd [.addTag name ref false]

theorem commit_tags (a : ATree) (b : Option Str) (u u' : UID) (x y : Str) : (a.commit b u u' x y).tag = a.tag := by
  unfold ATree.commit
  cases b <;> rfl

/-- **C103 does not hold beside two commands.** In a workspace a commit succeeds and then a new tag is made. A listing that starts before can end after both and show a workspace
that was at no moment there: the old mount, with the history in which the tag is. -/
theorem C103_violated {d d1 d2 : Disk} (hd : Reachable E d) {cwd : Str} (hout : E.Outside (Path.abs cwd (lit "."))) {w : OpenWs} (hg : Gets E d cwd (lit ".") w) {u p : UID}
    (hh : w.ws.HeadAt w.tree u p) {ci : CommitInfo} {r : OpenWs × OpenWs} (hc : Exec E Faults.none (commitCmd E cwd ci) d (.ok r) d1) {name ref : Str} (hu : validUtf8 name) {s : TS}
    (ht : Exec E Faults.none (editCmd E cwd [.addTag name ref false]) d1 (.ok s) d2) :
    ∃ w' ms, Alongside (fun _ : Fin 3 => E) (fun _ => Faults.none) (fun i => (trio cwd ci name ref i).prog E) d ms
      (fun | 0 => .ret (.ok (.read w')) | 1 => .ret (.ok (.moved r.1 r.2)) | 2 => .ret (.ok (.edited s))) d2 ∧
      w'.mount = w.mount ∧ w'.tree.abs.tag name ≠ none ∧ ∀ l ∈ ms, ¬ Gets E l cwd (lit ".") w' := by
  obtain ⟨g, hs⟩ := steady_reachable hd
  obtain ⟨T, hF⟩ := gets_found hs hout hg hh
  obtain ⟨_, _, u', ls, g', w1, hs1, _, _, _, ho1, hid1, hsp1, hbr1, hnew, htree1, hfresh, _⟩ := after_commit hs hF hc
  have hd1 : Reachable E d1 := reachable_next hd rfl (a := .commit cwd ci) hout (.commit hc)
  have hg1 := gets_of_opens ho1
  obtain ⟨w2, v, k, hg2, hsame, _, _, hno, hyes, _, _, hnode, _, _⟩ := C59_tag hd1 hout hg1 ho1.head hu ht
  have hno : w.tree.abs.tag name = none := by
    rcases hno with h | h
    · rw [htree1, commit_tags] at h; exact h
    · cases h
  obtain ⟨q, h, hrun, hget, hend⟩ := look_split hout hg
  obtain ⟨_, _, tb2, hO2, hT2⟩ := gets_three hout hg2
  have hd2 : Reachable E d2 := reachable_next hd1 rfl (a := .edit cwd [.addTag name ref false]) hout (.edit ht)
  have hdir : w2.spaceDir = w.spaceDir := by
    obtain ⟨g2, hs2⟩ := steady_reachable hd2
    obtain ⟨_, _, _, hF2⟩ := found_of_gets hs2 hout hg2
    rw [hF2.opens.dir, hF.opens.dir, hsame.2.2, hsp1]
  have hmount : w1.mount.id ≠ w.mount.id := fun e => hF.mdir (by rw [← e]; exact hfresh.newMdir)
  have hhas : w2.tree.abs.Has h := by
    have : w.tree.abs.Has h := (abs_has_iff_get (wf_of_reach (opens_reach hF.opens)) h).2 ⟨_, hget⟩
    rw [ATree.Has, hnode, htree1]
    exact extends_has (extends_commit (S := fun _ => True) trivial hnew) this
  obtain ⟨r2, hr2⟩ := (abs_has_iff_get (wf_of_reach (gets_reach hd2 hout hg2)) h).1 hhas
  have hlook := hend d2 tb2 w2.tree r2 (by rw [← hdir]; exact hT2.space) hO2.tree hr2
  generalize hw' : ({ w with tree := w2.tree, ws := { w.ws with head := r2 } } : OpenWs) = w' at hlook
  have hwm : w'.mount = w.mount := by rw [← hw']
  have hwt : w'.tree = w2.tree := by rw [← hw']
  have hA : ∀ l, Stops E Faults.none (commitCmd E cwd ci) d l → ¬ Gets E l cwd (lit ".") w' := by
    intro l hl hgl
    have htag : w'.tree.abs.tag name ≠ none := by rw [hwt, hyes]; simp
    rcases shows_commit hd hout hg hh hl hgl with e | ⟨u2, _, hcb, _⟩
    · rw [e] at htag; exact htag hno
    · cases hx : w'.tree.abs.tag name with
      | none => exact htag hx
      | some x =>
        obtain ⟨k0, v0, a1, _, a3, _⟩ := (hcb.tag name x).1 hx
        rw [commit_tags] at a1
        have hk : sanitize k0 = k0 := by
          obtain ⟨k1, _, _, _, b, _⟩ := (hF.back.tag k0 v0).1 a1
          rw [← b, sanitize_idem]
        rw [hk] at a3
        rw [a3, hno] at a1
        cases a1
  have hB : ∀ l, Stops E Faults.none (editCmd E cwd [.addTag name ref false]) d1 l → ¬ Gets E l cwd (lit ".") w' := by
    intro l hl hgl
    have hl' := stops_tree (Ph.bind (getWorkspace_ph _ _ 0) (Nat.le_refl _) fun w => editAll_ph _ _ _ _) hl
    obtain ⟨v0, _, _, a1, a2⟩ := gets_three hout hg1
    obtain ⟨v1, _, _, b1, b2⟩ := gets_three hout hgl
    have hv := b2.user
    rw [hl'.1, a2.user] at hv
    cases hv
    have := Res.ok.inj (a1.link.symm.trans b1.link)
    rw [hwm] at this
    exact hmount this
  have s0 : Alongside (fun _ : Fin 3 => E) (fun _ => Faults.none) (fun i => (trio cwd ci name ref i).prog E) d [d] (fun i => (trio cwd ci name ref i).prog E) d := .refl
  obtain ⟨m1, s1, k1⟩ := alongside_runs (E := E) (i := 0) (p := (Command.look cwd).prog E) rfl rfl s0 rfl hrun
  have x2 : Runs E ((Command.commit cwd ci).prog E) d (.ret (.ok (.moved r.1 r.2))) d1 := ran_exec (exec_ok hc (.ret _ _))
  obtain ⟨m2, s2, k2⟩ := alongside_runs (E := E) (i := 1) (p := (Command.commit cwd ci).prog E) rfl rfl s1 rfl x2
  have x3 : Runs E ((Command.edit cwd [.addTag name ref false]).prog E) d1 (.ret (.ok (.edited s))) d2 := ran_exec (exec_ok ht (.ret _ _))
  obtain ⟨m3, s3, k3⟩ := alongside_runs (E := E) (i := 2) (p := (Command.edit cwd [.addTag name ref false]).prog E) rfl rfl s2 rfl x3
  obtain ⟨m4, s4, k4⟩ := alongside_runs (E := E) (i := 0) (p := q) rfl rfl s3 rfl (ran_exec hlook)
  refine ⟨w', m4 ++ (m3 ++ (m2 ++ (m1 ++ [d]))), ?_, hwm, by rw [hwt, hyes]; simp, ?_⟩
  rotate_left
  · intro l hl
    rcases List.mem_append.1 hl with hl | hl
    · have e := onlyReads_stops (ran_onlyReads hrun (onlyReads_look cwd)) (k4 l hl)
      rw [e]; exact hB _ (exec_stops ht)
    rcases List.mem_append.1 hl with hl | hl
    · exact hB l (stops_inner (k3 l hl))
    rcases List.mem_append.1 hl with hl | hl
    · exact hA l (stops_inner (k2 l hl))
    rcases List.mem_append.1 hl with hl | hl
    · rw [onlyReads_stops (onlyReads_look cwd) (k1 l hl)]; exact hA _ (.here _ _)
    · rw [List.mem_singleton.1 hl]; exact hA _ (.here _ _)
  · refine Eq.mp (congrArg (fun qs => Alongside _ _ _ d _ qs d2) (funext fun i => ?_)) s4
    match i with
    | 0 => rfl
    | 1 => rfl
    | 2 => rfl

end
end Verif
