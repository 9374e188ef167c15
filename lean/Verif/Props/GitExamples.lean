import Verif.Props.Git
import Verif.Props.Examples

/-!
# A concrete history for C91

`init /w main`, the file `f` is written in `/w`, a commit, a clone to `/v`, the file `g` is written in `/v`, a checkout of HEAD in
`/v`. The history exists, and the theorems of C91 say what is seen in it.
-/

set_option autoImplicit false
namespace Verif
open M TS Json Story
namespace Story

/-- One file `g` with the content `y`. -/
def second_file : Content := fun p => if p = [] then some (.dir false .new) else if p = [lit "g"] then some (.file (lit "y")) else none

theorem no_links (P : Str) : ¬ LeadsIn E0 P (disk0.user P) := by
  rintro ⟨t, _, _, _, h, _⟩
  cases h

/-- The history. -/
structure Course (d1 d2 d3 d4 d5 d6 : Disk) : Prop where
  init : Doing (E0.as 0) Faults.none (.init (Path.abs cw (lit ".")) (lit "main")) disk0 d1
  write : Doing (E0.as 0) Faults.none (.write (Path.abs cw (lit "."))) d1 d2
  commit : Doing (E0.as 0) Faults.none (.commit (Path.abs cw (lit ".")) ci.date ci.message) d2 d3
  clone : Doing (E0.as 0) Faults.none (.clone (Path.abs cw (lit ".")) (Path.abs cv (lit "."))) d3 d4
  write2 : Doing (E0.as 0) Faults.none (.write (Path.abs cv (lit "."))) d4 d5
  checkout : Doing (E0.as 0) Faults.none (.checkout (Path.abs cv (lit ".")) (lit "HEAD")) d5 d6

theorem Course.two {d1 d2 d3 d4 d5 d6 : Disk} (h : Course d1 d2 d3 d4 d5 d6) : Doings E0 Faults.none [.init (Path.abs cw (lit ".")) (lit "main"), .write (Path.abs cw (lit "."))] disk0 d2 :=
  .snoc (as := [_]) (.snoc (as := []) .nil h.init) h.write

theorem Course.mid {d1 d2 d3 d4 d5 d6 : Disk} (h : Course d1 d2 d3 d4 d5 d6) :
    Doings E0 Faults.none [.clone (Path.abs cw (lit ".")) (Path.abs cv (lit ".")), .write (Path.abs cv (lit "."))] d3 d5 :=
  .snoc (as := [_]) (.snoc (as := []) .nil h.clone) h.write2

theorem course_lists {d : Disk} {w : OpenWs} {u p : UID} {ls : List UID} {cwd : Str} (h : Live E0 d cwd w u p ls) {c : Content} (hc : d.content u = c) {n x : Str}
    (hn : c [n] = some (.file x)) (hd : c [] = some (.dir false .new)) : d.lists w [n] = some (.file x) := by
  rw [lists_mounted h.mnt, List.map_cons, hc]
  simp only [files, view, stack, merge, topEnt, hn, hd]
  rfl

theorem course : ∃ d1 d2 d3 d4 d5 d6 w u root w2 u2, Course d1 d2 d3 d4 d5 d6 ∧ Live E0 d2 cw w u root [root] ∧ d2.lists w [lit "f"] = some (.file (lit "x")) ∧
    Live E0 d5 cv w2 u2 u [u, root] ∧ d5.lists w2 [lit "g"] = some (.file (lit "y")) := by
  obtain ⟨d1, r1, w, u, root, he1, hL1, hus1, hb, hN, hfr1, hhd⟩ := live_init (E := E0) (d := disk0) ⟨disk0, untouched0, .refl⟩ (cwd := cw) (branch := lit "main")
    outw rfl (fits (by decide)) (by decide)
  rw [main_clean] at hb hN
  obtain ⟨hL2, hu2, hc2⟩ := live_write hL1 one
  have hmay : MayCommit w u := by
    refine Or.inr ⟨root, ?_, .step hN.work rfl (.refl hN.first)⟩
    rw [hb]
    exact (hN.branches _ _).2 ⟨rfl, rfl⟩
  have hus1' : d1.used.length ≤ 5 := hus1
  obtain ⟨d3, r3, w3, u3, he3, hL3, hus3, hsame, hmay3, _, _, hfr3, _⟩ := live_commit neat hL2 hmay (fits (by simp)) (by rw [hu2]; omega) ci
  rw [hu2] at hus3
  have hput : (d1.put u one).user = d1.user := by unfold Disk.put; split <;> rfl
  have hfree : d3.user (Path.abs cv (lit ".")) = .none := by rw [hfr3 _ vw, hput, hfr1 _ vw]; rfl
  obtain ⟨d4, r4, w4, u4, he4, hL4, hus4, _⟩ := live_clone neat hL3 outv hfree (fits (by simp)) (by omega)
  obtain ⟨hL5, hu5, hc5⟩ := live_write hL4 Story.second_file
  obtain ⟨d6, r6, w6, u6, he6, hL6, _⟩ := live_checkout neat plainHEAD hL5 (v := u) (kt := .commit) .head hL5.path (fits (by simp)) (by rw [hu5]; omega)
  have s1 : Doing (E0.as 0) Faults.none (.init (Path.abs cw (lit ".")) (lit "main")) disk0 d1 := .init outw he1
  have s2 : Doing (E0.as 0) Faults.none (.write (Path.abs cw (lit "."))) d1 (d1.put u one) := .write hL1.link hL1.mnt
  have s3 : Doing (E0.as 0) Faults.none (.commit (Path.abs cw (lit ".")) ci.date ci.message) (d1.put u one) d3 := .commit outw he3
  have s4 : Doing (E0.as 0) Faults.none (.clone (Path.abs cw (lit ".")) (Path.abs cv (lit "."))) d3 d4 := .clone outw outv he4
  have s5 : Doing (E0.as 0) Faults.none (.write (Path.abs cv (lit "."))) d4 (d4.put u4 Story.second_file) := .write hL4.link hL4.mnt
  have s6 : Doing (E0.as 0) Faults.none (.checkout (Path.abs cv (lit ".")) (lit "HEAD")) (d4.put u4 Story.second_file) d6 := by
    refine .checkout outv he6 ?_
    intro w' u' p' v kt hg hh hr
    obtain ⟨G, g, _, hS⟩ := sim_doings (f := Faults.none) (sim_untouched untouched0 no_links)
      (.snoc (as := [_, _, _, _]) (o := 0) (.snoc (as := [_, _, _]) (o := 0) (.snoc (as := [_, _]) (o := 0) (.snoc (as := [_]) (o := 0) (.snoc (as := []) (o := 0) .nil s1) s2) s3) s4) s5)
    obtain ⟨T, hF⟩ := gets_found hS.steady outv hg hh
    obtain ⟨s, k1, k2, k3, rfl, rfl⟩ := sim_here hS hF
    obtain ⟨rfl, rfl⟩ := Ws.resolves_unique hr .head
    cases hx : G.snap s.on with
    | none => exact absurd hx (hS.base _ _ k1)
    | some F => exact (hS.snap _ _ hx).1
  exact ⟨d1, _, d3, d4, _, d6, w, u, root, w4, u4, ⟨s1, s2, s3, s4, s5, s6⟩, hL2, course_lists hL2 hc2 rfl rfl, hL5, course_lists hL5 hc5 rfl rfl⟩

/-- `C91_returns`: after the checkout the clone shows the file `f` of the commit. -/
example : ∃ d6 w3, (∃ d1 d2 d3 d4 d5, Course d1 d2 d3 d4 d5 d6) ∧ Gets E0 d6 cv (lit ".") w3 ∧ d6.lists w3 [lit "f"] = some (.file (lit "x")) := by
  obtain ⟨d1, d2, d3, d4, d5, d6, w, u, root, w2, u2, hC, hL, hf, hL2, _⟩ := course
  obtain ⟨w3, h1, _, h3⟩ := C91_returns untouched0 no_links hC.two (o := 0) hC.commit hC.mid (cwd := cw) (path := lit ".") rfl outw hL.gets hL.opens.head outv hL2.gets hL2.opens.head
    .head (o2 := 0) hC.checkout
  exact ⟨d6, w3, ⟨d1, d2, d3, d4, d5, hC⟩, h1, by rw [h3]; exact hf⟩

theorem run_snoc {as : List Deed} {a : Deed} {B G : Git} (h : Git.Run (as ++ [a]) B G) : ∃ G1, Git.Run as B G1 ∧ Git.Step a G1 G := by
  generalize hx : as ++ [a] = l at h
  cases h with
  | nil => simp at hx
  | snoc q1 q2 =>
    obtain ⟨e1, e2⟩ := List.append_inj' hx rfl
    subst e1
    obtain ⟨rfl, _⟩ := List.cons.inj e2
    exact ⟨_, q1, q2⟩

theorem course_ws {G : Git} (h : Git.Run ([.init (Path.abs cw (lit ".")) (lit "main")] ++ [.write (Path.abs cw (lit "."))] ++ [.commit (Path.abs cw (lit ".")) ci.date ci.message]
      ++ [.clone (Path.abs cw (lit ".")) (Path.abs cv (lit "."))] ++ [.write (Path.abs cv (lit "."))]) Git.blank G) :
    (∃ s, G.ws (Path.abs cw (lit ".")) = some s) ∧ ∃ s, G.ws (Path.abs cv (lit ".")) = some s := by
  obtain ⟨G4, h, q5⟩ := run_snoc h
  obtain ⟨G3, h, q4⟩ := run_snoc h
  have e := (Git.step_ws q5 (p := Path.abs cw (lit ".")) fun e => vw (Option.some.inj e)).trans (Git.step_ws q4 fun e => vw (Option.some.inj e))
  refine ⟨by rw [e]; cases q4 with | clone a1 _ _ _ => exact ⟨_, a1⟩, ?_⟩
  cases q5 with
  | write b1 =>
    dsimp only
    exact ⟨_, upd_self _ _ _⟩

theorem Course.five {d1 d2 d3 d4 d5 d6 : Disk} (hC : Course d1 d2 d3 d4 d5 d6) :
    Doings E0 Faults.none ([.init (Path.abs cw (lit ".")) (lit "main")] ++ [.write (Path.abs cw (lit "."))] ++ [.commit (Path.abs cw (lit ".")) ci.date ci.message]
      ++ [.clone (Path.abs cw (lit ".")) (Path.abs cv (lit "."))] ++ [.write (Path.abs cv (lit "."))]) disk0 d5 :=
  .snoc (o := 0) (.snoc (o := 0) (.snoc (o := 0) (.snoc (o := 0) (.snoc (as := []) (o := 0) .nil hC.init) hC.write) hC.commit) hC.clone) hC.write2

/-- `C91_undisturbed`: the checkout in `/v` leaves alone what is in `/w`. -/
example : ∃ d5 d6 w w1, (∃ d1 d2 d3 d4, Course d1 d2 d3 d4 d5 d6) ∧ Gets E0 d5 cw (lit ".") w ∧ Gets E0 d6 cw (lit ".") w1 ∧ d6.lists w1 = d5.lists w := by
  obtain ⟨d1, d2, d3, d4, d5, d6, w, u, root, w2, u2, hC, hL, hf, hL2, _⟩ := course
  have hw : ∃ w u p, Gets E0 d5 cw (lit ".") w ∧ w.ws.HeadAt w.tree u p := by
    obtain ⟨G, h1, h2⟩ := C91_history untouched0 no_links hC.five
    obtain ⟨s, hs⟩ := (course_ws h1).1
    obtain ⟨w, b1, _, _, _, b5, _⟩ := h2.ws hs (cwd := cw) (path := lit ".") rfl
    exact ⟨w, _, _, b1, b5⟩
  obtain ⟨w, u, p, h1, h2⟩ := hw
  obtain ⟨w1, h3, _, _, _, h4⟩ := C91_undisturbed untouched0 no_links hC.five (o := 0) hC.checkout (cwd := cw) (path := lit ".") (fun e => vw (Option.some.inj e)) outw h1 h2
  exact ⟨d5, d6, w, w1, ⟨d1, d2, d3, d4, hC⟩, h1, h3, h4⟩

/-- `C91_history`, `C91_goes_on`: the machine has the same history, with workspaces at `/w` and `/v`. -/
example : ∃ d5 G, (∃ d1 d2 d3 d4 d6, Course d1 d2 d3 d4 d5 d6) ∧ Shows E0 d5 G ∧ (∃ s, G.ws (Path.abs cw (lit ".")) = some s) ∧ ∃ s, G.ws (Path.abs cv (lit ".")) = some s := by
  obtain ⟨d1, d2, d3, d4, d5, d6, w, u, root, w2, u2, hC, hL, hf, hL2, _⟩ := course
  obtain ⟨G, h1, h2⟩ := C91_history untouched0 no_links hC.five
  exact ⟨d5, G, ⟨d1, d2, d3, d4, d6, hC⟩, h2, course_ws h1⟩

end Story
end Verif
