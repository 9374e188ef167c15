import Verif.Props.Whole
import Verif.Props.FrozenExamples
import Verif.Props.Overlap
/-!
# Acts one after another are concurrent executions

Everything proved for whole concurrent histories (C71 to C74) therefore also holds for disks on which commands ran one after
another, with or without failing calls, and for everything that runs at once from there on.
-/
set_option autoImplicit false
namespace Verif
open M TS Json

section
variable {E : Env} {f : Faults}

theorem Sys.Apart.trans {a b c : World} (h : Sys.Apart E f a b) (h' : Sys.Apart E f b c) : Sys.Apart E f a c := by
  induction h' with
  | refl _ => exact h
  | step _ hn ha ih => exact .step ih hn ha

theorem single_one (d : Disk) (i : Nat) (p : Proc) : World.Single ⟨d, upd (fun _ => none) i (some p)⟩ := by
  intro j k q r hj hk
  by_cases h1 : j = i
  · by_cases h2 : k = i
    · rw [h1, h2]
    · simp only [upd_ne _ _ h2] at hk; cases hk
  · simp only [upd_ne _ _ h1] at hj; cases hj

theorem single_none (d : Disk) : World.Single ⟨d, fun _ => none⟩ := fun _ _ _ _ h => nomatch h

theorem apart_bind {α : Type} {x : Prog α} {d d1 : Disk} {a : α} {o : Nat} (h : Exec (E.as o) f x d a d1) (K : α → Prog (Res CErr Out)) (st : Disk) (tr : Trace) :
    ∃ tr', Sys.Apart E f ⟨d, upd (fun _ => none) 0 (some ⟨st, tr, x.bind K⟩)⟩ ⟨d1, upd (fun _ => none) 0 (some ⟨st, tr', K a⟩)⟩ := by
  induction h generalizing tr with
  | ret a d => exact ⟨tr, .refl _ (single_apart (single_one _ _ _))⟩
  | @op c k d d2 d3 y a hs _ ih =>
    obtain ⟨tr', h'⟩ := ih (⟨c, y⟩ :: tr)
    refine ⟨tr', Sys.Apart.trans (.step (.refl _ (single_apart (single_one _ _ _))) ?_ (single_apart (single_one _ _ _))) h'⟩
    have := Sys.Next.run (E := E) (f := f) (w := ⟨d, upd (fun _ => none) 0 (some ⟨st, tr, .op c fun z => (k z).bind K⟩)⟩) (i := 0)
      (p := ⟨st, tr, .op c fun z => (k z).bind K⟩) (by simp) rfl hs
    simp only [upd_upd] at this
    exact this

theorem apart_exec {p : Prog (Res CErr Out)} {d d1 : Disk} {r : Res CErr Out} {o : Nat} (h : Exec (E.as o) f p d r d1) (st : Disk) (tr : Trace) :
    ∃ tr', Sys.Apart E f ⟨d, upd (fun _ => none) 0 (some ⟨st, tr, p⟩)⟩ ⟨d1, upd (fun _ => none) 0 (some ⟨st, tr', .ret r⟩)⟩ := by
  have := apart_bind h .ret st tr
  rwa [prog_bind_ret] at this

/-- A command from beginning to end, as an execution with nothing else running. -/
theorem apart_command {c : Command} {d d' : Disk} {r : Res CErr Out} {o : Nat} (h : Exec (E.as o) f (c.prog E) d r d') :
    Sys.Apart E f ⟨d, fun _ => none⟩ ⟨d', fun _ => none⟩ := by
  obtain ⟨tr, h1⟩ := apart_exec h d []
  have h0 : Sys.Apart E f ⟨d, fun _ => none⟩ ⟨d, upd (fun _ => none) 0 (some ⟨d, [], c.prog E⟩)⟩ :=
    .step (.refl _ (single_apart (single_none _))) (.start (w := ⟨d, fun _ => none⟩) 0 c rfl) (single_apart (single_one _ _ _))
  have h2 := Sys.Next.kill (E := E) (f := f) (w := ⟨d', upd (fun _ => none) 0 (some ⟨d, tr, .ret r⟩)⟩) 0
  have e : upd (upd (fun _ => none) 0 (some ⟨d, tr, .ret r⟩)) 0 none = (fun _ => none : Nat → Option Proc) := by
    funext i
    by_cases hi : i = 0
    · subst hi; simp
    · simp [upd_ne _ _ hi]
  simp only [e] at h2
  exact .step (h0.trans h1) h2 (single_apart (single_none _))

theorem apart_happens {a : Act} {d d' : Disk} {o : Nat} (h : Happens (E.as o) f a d d') : Sys.Apart E f ⟨d, fun _ => none⟩ ⟨d', fun _ => none⟩ := by
  have go : ∀ {α : Type} {x : M α} {r : Res CErr α} (k : α → Out), Exec (E.as o) f x d r d' → ∃ r', Exec (E.as o) f (M.bind x fun a => M.pure (k a)) d r' d' := by
    intro α x r k h
    cases r with
    | ok a => exact ⟨_, exec_trans h (.ret _ _)⟩
    | err e => exact ⟨_, exec_trans h (.ret _ _)⟩
    | panic => exact ⟨_, exec_trans h (.ret _ _)⟩
    | diverge => exact ⟨_, exec_trans h (.ret _ _)⟩
  have out : Outside d d' → Sys.Apart E f ⟨d, fun _ => none⟩ ⟨d', fun _ => none⟩ := fun h =>
    .step (.refl _ (single_apart (single_none _))) (.outside (w := ⟨d, fun _ => none⟩) h) (single_apart (single_none _))
  cases h with
  | @init path branch _ _ _ h => exact (go .made h).elim fun _ h => apart_command (c := .init path branch) h
  | @clone cwd source target _ _ _ h => exact (go .made h).elim fun _ h => apart_command (c := .clone cwd source target) h
  | @commit cwd ci _ _ _ h => exact (go (fun x : OpenWs × OpenWs => Out.moved x.1 x.2) h).elim fun _ h => apart_command (c := .commit cwd ci) h
  | @checkout cwd key _ _ _ h => exact (go (fun x : OpenWs × OpenWs => Out.moved x.1 x.2) h).elim fun _ h => apart_command (c := .checkout cwd key) h
  | @edit cwd es _ _ _ h => exact (go .edited h).elim fun _ h => apart_command (c := .edit cwd es) h
  | write h => exact out (.write _ h)
  | stray h1 h2 _ => exact out (.stray _ h1 h2)
  | files => exact out (.touch _)
  | reboot => exact out .reboot

theorem apart_past {d d' : Disk} (h : Past E f d d') : Sys.Apart E f ⟨d, fun _ => none⟩ ⟨d', fun _ => none⟩ := by
  induction h with
  | refl => exact .refl _ (single_apart (single_none _))
  | step _ _ hh ih => exact ih.trans (apart_happens hh)

theorem bare_untouched {d : Disk} (h : Untouched d) : Bare ⟨d, fun _ => none⟩ :=
  ⟨fun _ => rfl, fun _ => by rw [h.mnt], fun _ => by rw [h.space], fun _ => by rw [h.info]⟩

theorem apart_steps {w w' : World} (h : Sys.Apart E f w w') : Sys.Steps E f w w' := by
  induction h with
  | refl _ => exact .refl _
  | step _ hn _ ih => exact .step ih hn

/-- Acts one after another, also with failing calls, are covered. -/
theorem C71_one_after_another {d d' : Disk} (h0 : Untouched d) (h : Past E f d d') : Sys.Tidy E f ⟨d, fun _ => none⟩ ⟨d', fun _ => none⟩ :=
  C71_apart (bare_untouched h0) (apart_past h)

end

namespace Story

/-- A stopped world with the disk `d`. -/
abbrev still (d : Disk) : World := ⟨d, fun _ => none⟩

theorem bare0 (d : Disk) (h : Untouched d) : Bare (still d) := bare_untouched h

/-- The example of a first commit (`begun`, `second`) as an execution, followed by an `init` and a `checkout` that have just
started. -/
theorem whole : ∃ d0 d w u root d' w' u' W, Begun d w u root ∧ Second d w u d' w' u' root ∧ Bare (still d0) ∧
    Sys.Tidy E0 Faults.none (still d0) (still d) ∧ Sys.Tidy E0 Faults.none (still d) W ∧ W.disk = d' ∧
    (∃ p, W.procs 1 = some p ∧ p.prog = (Command.init (lit "/y") (lit "main")).prog E0) ∧ (∃ p, W.procs 2 = some p) := by
  obtain ⟨d, w, u, root, d', w', u', hB, hS⟩ := second
  obtain ⟨d0, h0, hp⟩ := hB.live.past
  obtain ⟨r, he⟩ := hS.run
  refine ⟨d0, d, w, u, root, d', w', u',
    ⟨d', upd (upd (fun _ => none) 1 (some ⟨d', [], (Command.init (lit "/y") (lit "main")).prog E0⟩)) 2
      (some ⟨d', [], (Command.checkout cw (lit "HEAD")).prog E0⟩)⟩, hB, hS, bare0 _ h0, C71_one_after_another h0 hp, ?_, rfl, ?_, ?_⟩
  · refine C71_no_failing_writes rfl ?_
    have h1 : Sys.Steps E0 Faults.none (still d) (still d') := (apart_steps (apart_happens (Happens.commit he)))
    exact .step (.step h1 (.start 1 _ rfl)) (.start 2 _ rfl)
  · exact ⟨_, rfl, rfl⟩
  · exact ⟨_, rfl⟩

theorem Begun.file {d : Disk} {w : OpenWs} {u root : UID} (h : Begun d w u root) :
    ∃ b, d.space w.spaceDir = some (some b) ∧ spaceLoad (.ok b) = .ok w.tree ∧ w.tree.abs.Has u := by
  obtain ⟨T, b, _, _, h1, h2⟩ := h.live.opens.tree
  exact ⟨b, h1, h2, _, h.new.work⟩

theorem Second.file {d : Disk} {w : OpenWs} {u : UID} {d' : Disk} {w' : OpenWs} {u' root : UID} (h : Second d w u d' w' u' root) :
    ∃ b, d'.space w'.spaceDir = some (some b) ∧ spaceLoad (.ok b) = .ok w'.tree ∧ w'.tree.abs.Path u' [u', u, root] := by
  obtain ⟨T, b, _, _, h1, h2⟩ := h.live.opens.tree
  exact ⟨b, h1, h2, h.live.full⟩

/-- `C71_tree_whole`, `C71_load_total`: a tree of three nodes, while two commands run. -/
example : ∃ (w0 W : World) (n b : Str) (s : TS) (u' u root : UID), Bare w0 ∧ Sys.Tidy E0 Faults.none w0 W ∧ W.procs 1 ≠ none ∧
    W.disk.space n = some (some b) ∧ spaceLoad (.ok b) = .ok s ∧ s.abs.Path u' [u', u, root] ∧ s.abs.Rooted ∧ W.disk.HasDiff u := by
  obtain ⟨d0, d, w, u, root, d', w', u', W, hB, hS, h0, h1, h2, rfl, ⟨p, h3, _⟩, _⟩ := whole
  obtain ⟨b, h4, h5, h6⟩ := hS.file
  obtain ⟨h7, h8⟩ := C71_tree_whole h0 (h1.trans h2) h4 h5
  refine ⟨_, W, _, b, _, u', u, root, h0, h1.trans h2, by rw [h3]; simp, h4, h5, h6, h7, h8 u ?_⟩
  cases h6 with | step _ _ h => cases h with | step h _ _ => exact ⟨_, h⟩

/-- `C71_record_whole`: the record of `/w`. -/
example : ∃ (w0 W : World) (n b : Str) (j : WsInfo) (u' : UID), Bare w0 ∧ Sys.Tidy E0 Faults.none w0 W ∧ W.procs 1 ≠ none ∧
    W.disk.info n = some b ∧ unmarshalInfo b = some j ∧ j.head = u'.hex ∧ W.disk.HasDiff u' := by
  obtain ⟨d0, d, w, u, root, d', w', u', W, hB, hS, h0, h1, h2, rfl, ⟨p, h3, _⟩, _⟩ := whole
  obtain ⟨i, h4, _, _, _, h5, _⟩ := hS.live.opens.info
  have hj := C17_info_roundtrip E0.sh i
  obtain ⟨v, h7, h8⟩ := C71_record_whole h0 (h1.trans h2) h4 hj
  refine ⟨_, W, _, _, _, v, h0, h1.trans h2, by rw [h3]; simp, h4, hj, h7, h8⟩

/-- `C72_ancestry`, `C72_parent`: the commit `u` in the tree before and after it was committed. -/
example : ∃ (w0 W1 W2 : World) (n1 n2 b1 b2 : Str) (s1 s2 : TS) (u root : UID), Bare w0 ∧ Sys.Tidy E0 Faults.none w0 W1 ∧ Sys.Tidy E0 Faults.none W1 W2 ∧
    W1.disk.space n1 = some (some b1) ∧ W2.disk.space n2 = some (some b2) ∧ spaceLoad (.ok b1) = .ok s1 ∧ spaceLoad (.ok b2) = .ok s2 ∧
    s1.abs.Has u ∧ s2.abs.Has u ∧ s1.abs.node u ≠ s2.abs.node u ∧ s1.abs.Path u [u, root] ∧ s2.abs.Path u [u, root] := by
  obtain ⟨d0, d, w, u, root, d', w', u', W, hB, hS, h0, h1, h2, rfl, _, _⟩ := whole
  obtain ⟨b1, h3, h4, h5⟩ := hB.file
  obtain ⟨b2, h6, h7, h8⟩ := hS.file
  have h9 : w'.tree.abs.Has u := by cases h8 with | step _ _ h => cases h with | step h _ _ => exact ⟨_, h⟩
  have h10 := hB.live.full
  refine ⟨_, _, W, _, _, b1, b2, _, _, u, root, h0, h1, h2, h3, h6, h4, h7, h5, h9, ?_, h10, (C72_ancestry h0 h1 h2 h3 h6 h4 h7 h5 h9 _).1 h10⟩
  obtain ⟨n, n', e1, e2, _, _, e3, _⟩ := hS.effect.commit
  rw [e1, e2]
  intro e
  cases e
  rw [hB.new.work] at e1
  cases e1
  cases e3

/-- `C73_no_hang`. -/
example : ∃ (w0 W : World) (p : Proc), Bare w0 ∧ Sys.Tidy E0 Faults.none w0 W ∧ W.procs 1 = some p ∧ W.procs 2 ≠ none ∧ p.prog ≠ .ret .diverge := by
  obtain ⟨d0, d, w, u, root, d', w', u', W, hB, hS, h0, h1, h2, rfl, ⟨p, h3, _⟩, ⟨q, h4⟩⟩ := whole
  exact ⟨_, W, p, h0, h1.trans h2, h3, by rw [h4]; simp, C73_no_hang h0 (h1.trans h2) h3⟩

/-- `C73_crash`: a link whose name of a mount ends with a line break. -/
example : ∃ (w0 W : World) (p : Proc), Bare w0 ∧ Sys.Tidy E0 Faults.none w0 W ∧ W.procs 0 = some p ∧ p.prog = .ret .panic := by
  let t : Str := lit "/d/mounts/AAAQEAYEAUDAOCAJBIFQYDIOB\n"
  let d : Disk := { disk0 with user := upd (fun _ => .none) (lit "/w") (.link t) }
  have he : Exec E0 Faults.none ((Command.look cw).prog E0) d .panic d := by
    refine .op (x := true) (d1 := d) ?_ (.op (x := some t) (d1 := d) ?_ ?_)
    · exact ⟨rfl, Or.inl ⟨fun _ => ⟨t, by decide⟩, fun _ => rfl⟩⟩
    · exact ⟨rfl, Or.inl ⟨t, by decide, rfl⟩⟩
    · exact .ret _ _
  obtain ⟨tr, h1⟩ := steps_exec he (fun _ => none) 0 d []
  have h2 : Sys.Steps E0 Faults.none (still disk0) _ := .step (.step (.refl _) (.outside (.touch (upd (fun _ => .none) (lit "/w") (.link t))))) (.start 0 (.look cw) rfl)
  exact ⟨_, _, _, bare0 _ untouched0, C71_no_failing_writes rfl (h2.trans h1), (by simp; rfl), rfl⟩

/-- `C74_mount_history`, `C74_mount_history_before`, `C74_mounts_agree`: the mount of `/w` before the commit and the tree after it, and
the other way round. -/
example : ∃ (w0 W1 W2 : World) (k n b : Str) (s : TS) (m : Mnt) (u' u root : UID), Bare w0 ∧ Sys.Tidy E0 Faults.none w0 W1 ∧ Sys.Tidy E0 Faults.none W1 W2 ∧
    W1.disk.mnt k = some m ∧ m.upper = u ∧ m.lowers = [root] ∧ (∃ k', W2.disk.mnt k' = some ⟨u', [u, root]⟩) ∧ W2.disk.space n = some (some b) ∧ spaceLoad (.ok b) = .ok s ∧
    s.abs.Has u ∧ s.abs.Path u [u, root] := by
  obtain ⟨d0, d, w, u, root, d', w', u', W, hB, hS, h0, h1, h2, rfl, _, _⟩ := whole
  obtain ⟨b2, h6, h7, h8⟩ := hS.file
  have h9 : w'.tree.abs.Has u := by cases h8 with | step _ _ h => cases h with | step h _ _ => exact ⟨_, h⟩
  exact ⟨_, _, W, _, _, b2, _, _, u', u, root, h0, h1, h2, hB.live.mnt, rfl, rfl, ⟨_, hS.live.mnt⟩, h6, h7, h9, C74_mount_history h0 h1 h2 hB.live.mnt h6 h7 h9⟩

end Story
end Verif
