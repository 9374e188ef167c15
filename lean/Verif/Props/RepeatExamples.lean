import Verif.Props.Repeat
import Verif.Props.Overlap
import Verif.Props.Examples
import Verif.World.Mono
/-!
# IDs of different commands: examples
-/
set_option autoImplicit false
namespace Verif
open M TS Json Story

/-- The entries that `Seed` makes are fixed numbers xor the entries of the table. -/
theorem seedLoop_mix : ∀ (n i : Nat) (x : Int), ∃ mix : Nat → UInt64, ∀ cooked vec j, seedLoop cooked n i x vec j = if i ≤ j ∧ j < i + n then mix j ^^^ cooked j else vec j := by
  intro n
  induction n with
  | zero => exact fun i x => ⟨fun _ => 0, fun cooked vec j => by rw [seedLoop, if_neg (by omega)]⟩
  | succ n ih =>
    intro i x
    obtain ⟨mix, h⟩ := ih (i + 1) (seedrand (seedrand (seedrand x)))
    refine ⟨fun j => if j = i then (UInt64.ofInt (seedrand x) <<< 40) ^^^ (UInt64.ofInt (seedrand (seedrand x)) <<< 20) ^^^ UInt64.ofInt (seedrand (seedrand (seedrand x))) else mix j, fun cooked vec j => ?_⟩
    rw [seedLoop]
    simp only
    rw [h]
    by_cases hj : j = i
    · subst hj
      rw [if_neg (by omega), if_pos rfl, if_pos (by omega), if_pos rfl]
    · rw [if_neg hj, if_neg hj]
      by_cases hr : i + 1 ≤ j ∧ j < i + 1 + n
      · rw [if_pos hr, if_pos (by omega)]
      · rw [if_neg hr, if_neg (by omega)]

/-- So with some table the generator has any given numbers. -/
theorem newSource_any (g : Nat → UInt64) (hg : ∀ j, 607 ≤ j → g j = 0) (t : Int) : ∃ cooked, newSource cooked t = ⟨0, 607 - 273, g⟩ := by
  obtain ⟨mix, h⟩ := seedLoop_mix 607 0 (seedrands 20 (seedOf t))
  refine ⟨fun j => mix j ^^^ g j, ?_⟩
  have hv : ∀ v : Nat → UInt64, v = g → (⟨0, 607 - 273, v⟩ : RngSource) = ⟨0, 607 - 273, g⟩ := fun v h => by rw [h]
  refine hv _ (funext fun j => ?_)
  rw [h]
  by_cases hj : j < 607
  · rw [if_pos (by omega), ← UInt64.xor_assoc, UInt64.xor_self, UInt64.zero_xor]
  · rw [if_neg (by omega), hg j (by omega)]

section
variable {E : Env}

theorem step_total_any (c : Cmd) (hc : c ≠ .rand) (d : Disk) : ∃ x d', Step E Faults.none c d x d' := by
  obtain ⟨x, d', h⟩ := step_total E ⟨false, false, true⟩ c d ⟨UID.new 0 0, Or.inr rfl⟩
  refine ⟨x, d', ?_⟩
  cases c <;> first | exact h | exact absurd rfl hc

/-- A run in which nothing fails, with the IDs of a generator that gives different new ones. -/
theorem exec_drawing_new {α : Type} {p : Prog α} {n : Nat} (h : Draws p n) (d : Disk) (r : RngSource) (hn : (r.ids n).Nodup) (hd : ∀ u ∈ r.ids n, u ∉ d.used) :
    ∃ a d' m, m ≤ n ∧ Exec E Faults.none p d a d' ∧ d'.used = (r.ids m).reverse ++ d.used := by
  induction h generalizing d r with
  | ret => exact ⟨_, d, 0, by omega, .ret _ _, rfl⟩
  | @rand k n _ ih =>
    rw [RngSource.ids] at hn hd
    obtain ⟨hn1, hn2⟩ := List.nodup_cons.1 hn
    obtain ⟨a, d', m, hm, he, hu⟩ := ih r.newUID.1 { d with used := r.newUID.1 :: d.used } r.newUID.2 hn2 (fun u hu hx => by
      rcases List.mem_cons.1 hx with rfl | hx
      · exact hn1 hu
      · exact hd u (List.mem_cons_of_mem _ hu) hx)
    refine ⟨a, d', m + 1, by omega, .op (c := .rand) (x := r.newUID.1) ⟨Or.inl (hd _ (by simp)), rfl⟩ he, ?_⟩
    rw [hu, RngSource.ids, List.reverse_cons, List.append_assoc]
    rfl
  | @op c k n hc _ ih =>
    obtain ⟨x, d1, hs⟩ := step_total_any (E := E) c hc d
    obtain ⟨a, d', m, hm, he, hu⟩ := ih x d1 r hn (by rw [(step_used hs).2 hc]; exact hd)
    exact ⟨a, d', m, hm, .op hs he, by rw [hu, (step_used hs).2 hc]⟩

/-- The IDs in the trace are those that were used. -/
theorem steps_drawing {f : Faults} {p : Prog (Res CErr Out)} {d d1 : Disk} {r : Res CErr Out} (h : Exec E f p d r d1) (procs : Nat → Option Proc) (i : Nat) (st : Disk)
    (tr : Trace) {l : List UID} (hl : d.used = (drawn tr).reverse ++ l) :
    ∃ tr', Sys.Steps E f ⟨d, upd procs i (some ⟨st, tr, p⟩)⟩ ⟨d1, upd procs i (some ⟨st, tr', .ret r⟩)⟩ ∧ d1.used = (drawn tr').reverse ++ l := by
  induction h generalizing tr with
  | ret a d => exact ⟨tr, .refl _, hl⟩
  | @op c k d d2 d3 y a hs _ ih =>
    obtain ⟨tr', h', hu⟩ := ih (⟨c, y⟩ :: tr) (by
      rw [step_draw hs, hl, drawn, List.reverse_append, ← List.append_assoc]
      congr 2
      cases c <;> rfl)
    refine ⟨tr', Sys.Steps.trans (.step (.refl _) ?_) h', hu⟩
    have := Sys.Next.run (E := E) (f := f) (w := ⟨d, upd procs i (some ⟨st, tr, .op c k⟩)⟩) (i := i) (upd_self _ _ _) rfl hs
    rwa [show ∀ q, upd (upd procs i (some ⟨st, tr, .op c k⟩)) i q = upd procs i q from fun q => upd_upd _ _ _ _] at this

/-- One call of a process. -/
theorem steps_one {f : Faults} {w0 : World} {d d' : Disk} {procs : Nat → Option Proc} (h : Sys.Steps E f w0 ⟨d, procs⟩) {i : Nat} {p : Proc} (hp : procs i = some p) (c : Cmd)
    {k : c.Ans → Prog (Res CErr Out)} (hk : p.prog = .op c k) (x : c.Ans) (hs : Step (E.as E.owner) f c d x d') :
    Sys.Steps E f w0 ⟨d', upd procs i (some ⟨p.start, ⟨c, x⟩ :: p.tr, k x⟩)⟩ :=
  .step h (.run (w := ⟨d, procs⟩) hp hk hs)

end

namespace Story

/-- Numbers for a generator. -/
def numbers (j : Nat) : UInt64 := if 597 ≤ j ∧ j < 607 then UInt64.ofNat j else 0

theorem numbers_nodup : ((⟨0, 607 - 273, numbers⟩ : RngSource).ids 5).Nodup := by decide +kernel

/-- `init` at `/w`, at the time 1, then `init` at `/v` at a time when the generator gives the same IDs. -/
theorem twice : ∃ (cooked : Nat → UInt64) (d d' : Disk) (o : Out) (r : Res CErr Out) (n m : Nat),
    Exec E0 Faults.none ((Command.init (Path.abs cw (lit ".")) (lit "main")).prog E0) disk0 (.ok o) d ∧ d.used = (idsFrom cooked 1 n).reverse ∧
    Exec E0 ⟨false, false, true⟩ ((Command.init (Path.abs cv (lit ".")) (lit "main")).prog E0) d r d' ∧
    d'.used = (idsFrom cooked (1 + 1 * (2 ^ 31 - 1)) m).reverse ++ d.used ∧ Reachable E0 d ∧ d.used.length ≤ 5 ∧ d.user (Path.abs cv (lit ".")) = .none := by
  obtain ⟨cooked, hc⟩ := newSource_any numbers (fun j hj => if_neg (by omega)) 1
  obtain ⟨r, d, n, hn, he, hu⟩ := exec_drawing_new (E := E0) (initCmd_draws E0 (Path.abs cw (lit ".")) (lit "main")) disk0 ⟨0, 607 - 273, numbers⟩ numbers_nodup
    (fun u _ h => nomatch h)
  have hr : Reachable E0 disk0 := reachable_untouched (f := Faults.none) rfl untouched0 .refl
  obtain ⟨w, rfl⟩ := C55_accepted hr (off_of_outside outw) (by unfold FreeFor; exact trivial) (Or.inl rfl) (fits (by simp)) he
  have e1 : Exec E0 Faults.none ((Command.init (Path.abs cw (lit ".")) (lit "main")).prog E0) disk0 (.ok (.made w)) d := exec_trans (a := .ok w) he (.ret _ _)
  obtain ⟨r', d', m, he', hu'⟩ := exec_drawing (E := E0) ((Command.init (Path.abs cv (lit ".")) (lit "main")).prog E0) d (newSource cooked (1 + 1 * (2 ^ 31 - 1)))
  refine ⟨cooked, d, d', .made w, r', n, m, e1, ?_, he', hu', ?_, ?_, ?_⟩
  · rw [hu, idsFrom, hc]; exact List.append_nil _
  · exact reachable_untouched (f := Faults.none) rfl untouched0 (.step (o := 0) .refl (a := .init _ _) (off_of_outside outw) (.init he))
  · exact exec_used (initCmd_draws _ _ _) he
  · obtain ⟨g, hs⟩ := steady_reachable hr
    obtain ⟨_, _, _, _, _, hFo, _, _, _, _, _, _, _, _, hfr, _⟩ := after_init hs outw he
    exact (hfr.user _ vw).trans (by rw [hFo.litter.user]; rfl)

/-- `C89_violated_same_ids`, `C89_violated_refused`, `C89_again_partial`: the second `init` fails. -/
example : ∃ (cooked : Nat → UInt64) (d d' : Disk) (o : Out) (r : Res CErr Out) (n m : Nat),
    Exec E0 Faults.none ((Command.init (Path.abs cw (lit ".")) (lit "main")).prog E0) disk0 (.ok o) d ∧ d.used = (idsFrom cooked 1 n).reverse ∧
    Exec E0 ⟨false, false, true⟩ ((Command.init (Path.abs cv (lit ".")) (lit "main")).prog E0) d r d' ∧
    d'.used = (idsFrom cooked (1 + 1 * (2 ^ 31 - 1)) m).reverse ++ d.used ∧ (∀ o, r ≠ .ok o) ∧ Unharmed d d' := by
  obtain ⟨cooked, d, d', o, r, n, m, e1, u1, e2, u2, _⟩ := twice
  have hr := (C89_violated_refused (f := Faults.none) (procs := fun _ => none) (k := 1) (c2 := .init (Path.abs cv (lit ".")) (lit "main")) rfl rfl e1 (.refl _)
    (u1.trans (List.append_nil _).symm)).2 _ r d' m e2 u2
  have ha := C89_again_partial (f := Faults.none) (procs := fun _ => none) rfl rfl e1 (.refl _) e2 (u1.trans (List.append_nil _).symm)
    (by rw [C89_violated_same_ids] at u2; exact u2) (ids_prefix n (n + m) _ (by omega)) (ids_prefix m (n + m) _ (by omega))
  exact ⟨cooked, d, d', o, r, n, m, e1, u1, e2, u2, hr, ha.2.2⟩

/-- `C89_used_layer_partial`: any command whose second ID is that of the root of `/w`. -/
example : ∃ (d : Disk) (v : UID), Reachable E0 d ∧ d.layer v ≠ none ∧ ∀ (us : List UID) (d' : Disk) (r : Res CErr Out),
    Exec E0 Faults.all ((Command.commit cw ci).prog E0) d r d' → d'.used = us.reverse ++ d.used → us[1]? = some v → r = .err .mkdirLayer ∧ Unharmed d d' := by
  obtain ⟨d, w, u, root, hB⟩ := begun
  obtain ⟨g, hs⟩ := steady_reachable hB.live.past.reachable
  have hv : d.layer u ≠ none := by
    obtain ⟨r, h1, h2, _⟩ := hs.mnt _ _ hB.live.mnt
    obtain ⟨c, hc⟩ := head_stored hs ⟨_, r, h1, h2.symm⟩
    rw [hc]; simp
  refine ⟨d, u, hB.live.past.reachable, hv, fun us d' r he hu h1 => ?_⟩
  have h := C89_used_layer_partial rfl he hu (fun x hx => by rw [h1] at hx; cases hx; exact hv)
  exact ⟨h.2.1 (by have := (List.getElem?_eq_some_iff.1 h1).1; omega), h.2.2⟩

/-- `C89_violated_pigeonhole`: one process every nanosecond. -/
example (cooked : Nat → UInt64) : ∃ i j : Nat, i < j ∧ ∀ n, idsFrom cooked i n = idsFrom cooked j n := by
  obtain ⟨i, j, hi, hj, hij, h⟩ := C89_violated_pigeonhole cooked (List.map Int.ofNat (List.range (2 ^ 31 - 1))) (by rw [List.length_map, List.length_range]; exact Nat.le_refl _)
  refine ⟨i, j, hij, fun n => ?_⟩
  have := h n
  rw [List.getElem_map, List.getElem_map, List.getElem_range, List.getElem_range] at this
  exact this

/-- `C89_careful_partial`, `C89_at_once_partial`: `init` at `/w` and at `/v` start; the first ends; then the second draws the same ID for its
layer. -/
example : ∃ (w : World) (p q : Proc) (v : UID), Sys.Steps E0 ⟨false, false, true⟩ ⟨disk0, fun _ => none⟩ w ∧ w.procs 0 = some p ∧ w.procs 1 = some q ∧
    (drawn p.tr)[1]? = some v ∧ (drawn q.tr)[1]? = some v ∧ (∃ o, p.prog = .ret (.ok o)) ∧ Fore q.tr := by
  obtain ⟨cooked, d, _, o, _, n, _, e1, u1, _, _, hR, hlen, hfree⟩ := twice
  have e2 := exec_mono (none_le ⟨false, false, true⟩) e1
  obtain ⟨us, a1, _, a2⟩ := command_drawn (c := .init (Path.abs cw (lit ".")) (lit "main")) rfl e1
  obtain ⟨v, hv, -⟩ := a2.resolve_right (fun h => h.2.1 o rfl)
  let c2 : Command := .init (Path.abs cv (lit ".")) (lit "main")
  have s1 := Sys.Next.start (E := E0) (f := ⟨false, false, true⟩) (w := ⟨disk0, fun _ => none⟩) 1 c2 rfl
  have s2 := Sys.Next.start (E := E0) (f := ⟨false, false, true⟩) (w := ⟨disk0, upd (fun _ => none) 1 (some ⟨disk0, [], c2.prog E0⟩)⟩) 0
    (.init (Path.abs cw (lit ".")) (lit "main")) rfl
  obtain ⟨tr, s3, ht⟩ := steps_drawing e2 (upd (fun _ => none) 1 (some ⟨disk0, [], c2.prog E0⟩)) 0 disk0 [] (l := []) rfl
  have hdr : drawn tr = us := by
    refine (List.reverse_inj.1 (List.append_cancel_right (ht.symm.trans (a1.trans ?_))))
    rfl
  obtain ⟨g, hs⟩ := steady_reachable hR
  obtain ⟨b, hb⟩ := fresh_exists d.used (by omega)
  have hsp : d.space b.base32 = none := by
    refine Classical.byContradiction fun h => ?_
    obtain ⟨u, h1, h2⟩ := hs.tracked.space _ h
    exact hb (base32_inj h2 ▸ h1)
  have t0 := ((Sys.Steps.refl _).step s1).step s2 |>.trans s3
  have t1 := steps_one t0 (i := 1) ((upd_ne _ _ (by decide)).trans (upd_self _ _ _)) (.exists_ (Path.abs cv (lit "."))) rfl false (d' := d)
    ⟨rfl, Or.inl (by unfold Exists; rw [hfree])⟩
  have t2 := steps_one t1 (i := 1) (upd_self _ _ _) .rand rfl b ⟨Or.inr rfl, rfl⟩
  have t3 := steps_one t2 (i := 1) (upd_self _ _ _) (.mkdirSpace b.base32) rfl true (Or.inl ⟨rfl, hsp, rfl⟩)
  have t4 := steps_one t3 (i := 1) (upd_self _ _ _) .rand rfl v ⟨Or.inr rfl, rfl⟩
  have hI : Idle ⟨disk0, fun _ => none⟩ := ⟨fun _ => rfl, fun _ _ h => (nomatch h), fun _ _ _ _ h => (nomatch h)⟩
  have hvp : (drawn tr)[1]? = some v := by rw [hdr]; exact hv
  have hF := ((C89_at_once_partial hI t4 (i := 0) rfl hvp).2 1 _ (by decide) rfl rfl).resolve_left fun h => h.2 o rfl
  exact ⟨_, _, _, v, t4, rfl, rfl, hvp, rfl, ⟨o, rfl⟩, hF.1⟩

end Story
end Verif
