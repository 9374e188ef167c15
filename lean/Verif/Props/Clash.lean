import Verif.World.Shut
import Verif.Props.Overlap
import Verif.Json.Extra
/-!
# A history that cannot be read stays that way (C78, C41, C43)
-/
set_option autoImplicit false
namespace Verif
namespace Json

theorem skipWs_brace (t : Str) : skipWs (t ++ [0x7D]) ≠ [] := by
  induction t with
  | nil => decide
  | cons c r ih =>
    simp only [List.cons_append, skipWs]
    split
    · exact ih
    · simp

/-- A written value with something else than white space behind it is refused. -/
theorem parseWith_rest (sh : Bool) (d : Nat) (v : Val) (h : NoNum v) {t : Str} (ht : skipWs t ≠ []) : parseWith d (emit sh v ++ t) = none := by
  have full : pval (need v) (depth v) (emit sh v ++ t) = some (clean v, t) := pval_emit sh v (need v) (depth v) t h (Nat.le_refl _) (Nat.le_refl _)
  unfold parseWith
  split
  · rename_i y r hy
    have h1 := (mono _ (show fuelFor (emit sh v ++ t) ≤ max (fuelFor (emit sh v ++ t)) (need v) by omega)
      (show d ≤ max d (depth v) by omega)).1 _ _ hy
    have h2 := (mono _ (show need v ≤ max (fuelFor (emit sh v ++ t)) (need v) by omega)
      (show depth v ≤ max d (depth v) by omega)).1 _ _ full
    rw [h1] at h2
    cases h2
    rw [if_neg ht]
  · rfl

theorem emitFieldsTail_brace (sh : Bool) : ∀ l : Fields, ∃ t, emitFieldsTail sh l = t ++ [0x7D]
  | .nil => ⟨[], by simp [emitFieldsTail]⟩
  | .cons k v l => by
    obtain ⟨t, h⟩ := emitFieldsTail_brace sh l
    exact ⟨0x2C :: (quote sh k ++ 0x3A :: (emit sh v ++ t)), by simp [emitFieldsTail, h]⟩

theorem emit_brace (sh : Bool) (l : Fields) : ∃ t, emit sh (.obj l) = t ++ [0x7D] := by
  cases l with
  | nil => exact ⟨[0x7B], by simp [emit, emitFields]⟩
  | cons k v l =>
    obtain ⟨t, h⟩ := emitFieldsTail_brace sh l
    exact ⟨0x7B :: (quote sh k ++ 0x3A :: (emit sh v ++ t)), by simp [emit, emitFields, h]⟩

end Json
open M TS Json

/-- A saved tree with the end of a longer one behind it is refused. -/
theorem load_mixed {sh sh' : Bool} {s s' : TS} {b b' : Str} (hs : SavesAs sh s b) (hs' : SavesAs sh' s' b') (hl : b.length < b'.length) :
    spaceLoad (.ok (b ++ b'.drop b.length)) = .err .unmarshal := by
  obtain ⟨d, _, rfl⟩ := hs
  obtain ⟨d', _, rfl⟩ := hs'
  obtain ⟨t, ht⟩ := emit_brace sh' (dumpFieldsJ d')
  have hdrop : ∃ t', (marshalDump sh' d').drop (marshalDump sh d).length = t' ++ [0x7D] := by
    unfold marshalDump at hl ⊢
    rw [ht] at hl ⊢
    refine ⟨t.drop (emit sh (.obj (dumpFieldsJ d))).length, ?_⟩
    rw [List.drop_append_of_le_length]
    simp at hl; omega
  obtain ⟨t', ht'⟩ := hdrop
  rw [spaceLoad_ok, ht']
  have : unmarshalDump (marshalDump sh d ++ (t' ++ [0x7D])) = none := by
    unfold unmarshalDump parse marshalDump
    rw [parseWith_rest sh _ _ (noNum_dump d) (skipWs_brace t')]; rfl
  rw [this]

section
variable {E : Env} {f : Faults}

theorem shut_of_loads {d : Disk} {n : Str} (h0 : d.space n ≠ none) (hio : f.io = false) (h : ∀ s, d.loads n ≠ .ok s) : Shut f d n := by
  refine ⟨h0, fun b hb s hl => h s ?_⟩
  rcases hb with hb | ⟨hf, _⟩
  · unfold Disk.loads; rw [hb]; exact hl
  · rw [hio] at hf; cases hf

theorem shut_loads {d : Disk} {n : Str} (h : Shut f d n) (s : TS) : d.loads n ≠ .ok s := by
  unfold Disk.loads
  cases hx : d.space n with
  | none => intro h; cases h
  | some o =>
    cases o with
    | none => intro h; cases h
    | some b => exact h.2 b (Or.inl hx) s

theorem shut_gets {d : Disk} {n : Str} (h : Shut f d n) {cwd path : Str} {w : OpenWs} (ho : E.Outside (Path.abs cwd path)) (hg : Gets E d cwd path w) :
    w.spaceDir ≠ n := by
  rintro rfl
  exact shut_loads h _ (gets_reads ho hg).2.2

/-! ## C78 -/

/-- **C78.** If the tree of a space cannot be read, then whatever commands run afterwards, at the same time or one after another,
killed or not, by whatever users, and whatever happens outside: the file keeps its bytes, and no path opens a workspace of the
space. Reading files does not fail. -/
theorem C78_untouched {W W' : World} (hidle : ∀ i, W.procs i = none) (hio : f.io = false) {n : Str} (hn : W.disk.space n ≠ none)
    (hbad : ∀ s, W.disk.loads n ≠ .ok s) (h : Sys.Steps E f W W') :
    W'.disk.space n = W.disk.space n ∧ ∀ cwd path w, E.Outside (Path.abs cwd path) → Gets E W'.disk cwd path w → w.spaceDir ≠ n := by
  have hs := shut_of_loads hn hio hbad
  have := (shut_steps hs (unheld_idle n hidle) h).1
  exact ⟨this, fun _ _ _ ho hg => shut_gets (shut_congr hs this) ho hg⟩

/-- **C78.** For a file that was not written to its end this is so even if calls fail for any reason. -/
theorem C78_torn {W W' : World} (hidle : ∀ i, W.procs i = none) {n : Str} {T : TS} {b q r : Str} (hb : SavesAs E.sh T b) (hq : q ++ r = b) (hr : r ≠ [])
    (hn : W.disk.space n = some (some q)) (h : Sys.Steps E f W W') :
    W'.disk.space n = some (some q) ∧ ∀ cwd path w, E.Outside (Path.abs cwd path) → Gets E W'.disk cwd path w → w.spaceDir ≠ n := by
  have hs : Shut f W.disk n := by
    refine ⟨by rw [hn]; simp, fun c hc s => ?_⟩
    have : ∃ t, c ++ t = q := by
      rcases hc with hc | ⟨_, full, hc, ⟨t, ht⟩⟩
      · rw [hn] at hc; cases hc; exact ⟨[], by simp⟩
      · rw [hn] at hc; cases hc; exact ⟨t, ht⟩
    obtain ⟨t, rfl⟩ := this
    rw [C18_torn_detected hb (p := c) (q := t ++ r) (by rw [← hq, List.append_assoc]) (by simp [hr])]
    simp
  have := (shut_steps hs (unheld_idle n hidle) h).1
  exact ⟨this.trans hn, fun _ _ _ ho hg => shut_gets (shut_congr hs this) ho hg⟩

/-! ## C41 -/

/-- **C41 (violated).** The damage of `C41_violated_truncated` is there to stay: a `branch` or `tag` that is killed between opening
the tree file and writing to it leaves a disk on which no path ever again opens a workspace of the space, whatever is done. -/
theorem C41_violated_forever {d d1 : Disk} (hd : Reachable E d) {cwd : Str} (hout : E.Outside (Path.abs cwd (lit "."))) {w : OpenWs}
    (hg : Gets E d cwd (lit ".") w) {e : Edit} {s : TS} (he : Exec E Faults.none (editCmd E cwd [e]) d (.ok s) d1) :
    ∃ d2, Stops E Faults.none (editCmd E cwd [e]) d d2 ∧
      ∀ (f : Faults) (W : World), Sys.Steps E f ⟨d2, fun _ => none⟩ W → ∀ cwd' path' w', E.Outside (Path.abs cwd' path') → Gets E W.disk cwd' path' w' →
        w'.spaceDir ≠ w.spaceDir := by
  let d2 := d.setSpace w.spaceDir (some (some []))
  have h2 : d2.space w.spaceDir = some (some []) := upd_self _ _ _
  refine ⟨d2, truncated_stop hd hout hg he, fun f W hW cwd' path' w' ho' hg' => ?_⟩
  have hs : Shut f d2 w.spaceDir := by
    refine ⟨by rw [h2]; simp, fun c hc s => ?_⟩
    have : c = [] := by
      rcases hc with hc | ⟨_, full, hc, hp⟩
      · rw [h2] at hc; cases hc; rfl
      · rw [h2] at hc; cases hc; exact List.prefix_nil.1 hp
    subst this
    show Res.err _ ≠ _
    simp
  have := (shut_steps (w := ⟨d2, fun _ => none⟩) hs (unheld_idle _ fun _ => rfl) hW).1
  exact shut_gets (shut_congr hs this) ho' hg'

/-! ## C43 -/

/-- The end of `branch` and `tag`: save and report. -/
def saving (n : Str) (s : TS) : Prog (Res CErr Out) :=
  .op (.dump s) fun b => .op (.truncTree n) fun ok => M.bind (M.need ok .saveTree) fun _ =>
    M.bind (M.ask (.writeTree n b)) fun ok => M.bind (M.need ok .saveTree) fun _ => M.pure (.edited s)

theorem edit_prog (cwd : Str) (e : Edit) : Command.prog E (.edit cwd [e]) = M.bind (getWorkspace E cwd (lit ".")) fun w =>
    M.bind (editAll w.spaceDir w.ws [e] w.tree) fun s => M.pure (.edited s) := mbind_assoc _ _ _

theorem edit_saving {w : OpenWs} {e : Edit} {s : TS} (h : e.apply w.tree w.ws = .ok s) :
    (M.bind (editAll w.spaceDir w.ws [e] w.tree) fun s => M.pure (.edited s) : M Out) = saving w.spaceDir s := by
  rw [editAll, h]
  show (Prog.op _ _ : Prog (Res CErr Out)) = Prog.op _ _
  congr 1
  funext b
  show (Prog.op _ _ : Prog (Res CErr Out)) = Prog.op _ _
  congr 1
  funext ok
  cases ok
  · rfl
  · show (Prog.op _ _ : Prog (Res CErr Out)) = Prog.op _ _
    congr 1
    funext ok
    cases ok <;> rfl

/-- One call of one process. -/
theorem step_one {c : Cmd} {k : c.Ans → Prog (Res CErr Out)} {x : c.Ans} {d d' : Disk} (hs : Step E f c d x d') (procs : Nat → Option Proc) (i : Nat) (st : Disk)
    (tr : Trace) : Sys.Steps E f ⟨d, upd procs i (some ⟨st, tr, .op c k⟩)⟩ ⟨d', upd procs i (some ⟨st, ⟨c, x⟩ :: tr, k x⟩)⟩ := by
  have := Sys.Next.run (E := E) (f := f) (w := ⟨d, upd procs i (some ⟨st, tr, .op c k⟩)⟩) (i := i) (upd_self _ _ _) rfl hs
  rw [show ∀ q, upd (upd procs i (some ⟨st, tr, .op c k⟩)) i q = upd procs i q from fun q => upd_upd _ _ _ _] at this
  exact .step (.refl _) this

/-- After opening the file. -/
def writing (n : Str) (s : TS) (b : Str) : Prog (Res CErr Out) :=
  .op (.writeTree n b) fun ok => M.bind (M.need ok .saveTree) fun _ => M.pure (.edited s)

/-- A process opens the tree file. -/
theorem steps_open {n : Str} {s : TS} {b : Str} (hb : SavesAs E.sh s b) {d : Disk} (hd : d.space n ≠ none) (procs : Nat → Option Proc) (i : Nat) (st : Disk) (tr : Trace) :
    ∃ tr', Sys.Steps E f ⟨d, upd procs i (some ⟨st, tr, saving n s⟩)⟩ ⟨d.setSpace n (some (some [])), upd procs i (some ⟨st, tr', writing n s b⟩)⟩ :=
  ⟨_, (step_one (c := .dump s) (x := b) (show Step E f (.dump s) d b d from ⟨rfl, Or.inl hb⟩) procs i st tr).trans
    (step_one (c := .truncTree n) (x := true) (show Step E f (.truncTree n) d true _ from Or.inl ⟨rfl, hd, rfl⟩) procs i st _)⟩

/-- A process writes and is done. -/
theorem steps_write {n : Str} {s : TS} {b old : Str} {d : Disk} (hd : d.space n = some (some old)) (procs : Nat → Option Proc) (i : Nat) (st : Disk) (tr : Trace) :
    ∃ tr', Sys.Steps E f ⟨d, upd procs i (some ⟨st, tr, writing n s b⟩)⟩
      ⟨d.setSpace n (some (some (overwrite b old))), upd procs i (some ⟨st, tr', .ret (.ok (.edited s))⟩)⟩ :=
  ⟨_, step_one (c := .writeTree n b) (x := true) (show Step E f (.writeTree n b) d true _ by simp only [Step, hd]; exact Or.inl ⟨trivial, trivial⟩) procs i st tr⟩

/-- **C43 (violated).** Take any two workspaces of one space and in each a `branch` or `tag` that it would carry out, such that
the two resulting trees have texts of different lengths. Both commands open the tree file, then the one with the longer text writes,
then the other one. Both report success, no call fails, and nobody is killed. Afterwards the space is lost: no path that opened a
workspace of it opens, and no path ever again opens any workspace of it, whatever commands run and whatever happens outside. -/
theorem C43_violated_clash {d : Disk} (hd : Reachable E d) {cwd1 cwd2 : Str} (hout1 : E.Outside (Path.abs cwd1 (lit ".")))
    (hout2 : E.Outside (Path.abs cwd2 (lit "."))) {w1 w2 : OpenWs} (hg1 : Gets E d cwd1 (lit ".") w1) (hg2 : Gets E d cwd2 (lit ".") w2)
    (hspace : w1.spaceID = w2.spaceID) {e1 e2 : Edit} {s1 s2 : TS} (h1 : e1.apply w1.tree w1.ws = .ok s1) (h2 : e2.apply w2.tree w2.ws = .ok s2)
    {b1 b2 : Str} (hb1 : SavesAs E.sh s1 b1) (hb2 : SavesAs E.sh s2 b2) (hlen : b2.length < b1.length) :
    ∃ W, Sys.Steps E Faults.none ⟨d, fun _ => none⟩ W ∧ Succeeded W 0 ∧ Succeeded W 1 ∧
      (∀ cwd' path' w', E.Outside (Path.abs cwd' path') → Gets E d cwd' path' w' → w'.spaceDir = w1.spaceDir → ∀ w2, ¬ Gets E W.disk cwd' path' w2) ∧
      ∀ (f : Faults) (W' : World), f.io = false → Sys.Steps E f W W' → ∀ cwd' path' w', E.Outside (Path.abs cwd' path') → Gets E W'.disk cwd' path' w' →
        w'.spaceDir ≠ w1.spaceDir := by
  obtain ⟨g, hs⟩ := steady_reachable hd
  obtain ⟨u1, p1, T1, hF1⟩ := found_of_gets hs hout1 hg1
  obtain ⟨u2, p2, T2, hF2⟩ := found_of_gets hs hout2 hg2
  have hdirs : w2.spaceDir = w1.spaceDir := by rw [hF1.opens.dir, hF2.opens.dir, hspace]
  have hsp : d.space w1.spaceDir ≠ none := by
    obtain ⟨_, b, _, _, hb, _⟩ := hF1.opens.tree
    rw [hb]; simp
  have r1 := edit_saving h1
  have r2 := edit_saving h2
  rw [hdirs] at r2
  -- both commands up to the point where they save
  have ga : Exec E Faults.none (getWorkspace E cwd1 (lit ".")) d (.ok w1) d := hg1
  have gb : Exec E Faults.none (getWorkspace E cwd2 (lit ".")) d (.ok w2) d := hg2
  obtain ⟨tr1, st1⟩ := steps_mbind ga (fun w => M.bind (editAll w.spaceDir w.ws [e1] w.tree) fun s => M.pure (.edited s)) (fun _ => none) 0 d []
  rw [← edit_prog, r1] at st1
  obtain ⟨tr2, st2⟩ := steps_mbind gb (fun w => M.bind (editAll w.spaceDir w.ws [e2] w.tree) fun s => M.pure (.edited s))
    (upd (fun _ => none) 0 (some ⟨d, tr1, saving w1.spaceDir s1⟩)) 1 d []
  rw [← edit_prog, hdirs, r2] at st2
  -- both open the file
  obtain ⟨tr3, st3⟩ := steps_open (f := Faults.none) hb2 hsp (upd (fun _ => none) 0 (some ⟨d, tr1, saving w1.spaceDir s1⟩)) 1 d tr2
  obtain ⟨tr4, st4⟩ := steps_open (f := Faults.none) (d := d.setSpace w1.spaceDir (some (some []))) hb1 (n := w1.spaceDir) (by simp [Disk.setSpace])
    (upd (fun _ => none) 1 (some ⟨d, tr3, writing w1.spaceDir s2 b2⟩)) 0 d tr1
  -- the longer text, then the other
  obtain ⟨tr5, st5⟩ := steps_write (E := E) (f := Faults.none) (d := (d.setSpace w1.spaceDir (some (some []))).setSpace w1.spaceDir (some (some []))) (n := w1.spaceDir)
    (s := s1) (b := b1) (upd_self _ _ _) (upd (fun _ => none) 1 (some ⟨d, tr3, writing w1.spaceDir s2 b2⟩)) 0 d tr4
  obtain ⟨tr6, st6⟩ := steps_write (E := E) (f := Faults.none)
    (d := ((d.setSpace w1.spaceDir (some (some []))).setSpace w1.spaceDir (some (some []))).setSpace w1.spaceDir (some (some (overwrite b1 [])))) (n := w1.spaceDir)
    (s := s2) (b := b2) (upd_self _ _ _) (upd (fun _ => none) 0 (some ⟨d, tr5, .ret (.ok (.edited s1))⟩)) 1 d tr3
  rw [upd_comm _ _ _ (show (1 : Nat) ≠ 0 by decide)] at st4 st5
  rw [upd_comm _ _ _ (show (1 : Nat) ≠ 0 by decide)] at st4 st5
  have hW := ((Sys.Steps.step (.refl _) (Sys.Next.start (E := E) (f := Faults.none) (w := ⟨d, fun _ => none⟩) 0 (.edit cwd1 [e1]) rfl)).trans st1).trans
    (((Sys.Steps.step (.refl _) (Sys.Next.start (E := E) (f := Faults.none) (w := ⟨d, upd (fun _ => none) 0 (some ⟨d, tr1, saving w1.spaceDir s1⟩)⟩) 1 (.edit cwd2 [e2]) rfl)).trans st2).trans
      (st3.trans (st4.trans (st5.trans st6))))
  have hfile : ∀ d : Disk, (d.setSpace w1.spaceDir (some (some (overwrite b2 (overwrite b1 []))))).space w1.spaceDir = some (some (b2 ++ b1.drop b2.length)) := by
    intro d
    simp [Disk.setSpace, overwrite]
  refine ⟨_, hW, ⟨⟨d, tr5, .ret (.ok (.edited s1))⟩, _, rfl, rfl⟩, ⟨⟨d, tr6, .ret (.ok (.edited s2))⟩, _, rfl, rfl⟩, ?_, fun f W' hio hW' cwd' path' w' ho' hg' => ?_⟩
  · intro cwd' path' w' ho' hg' hsd
    refine gets_no_tree (e := .unmarshal) ho' hg' rfl rfl ?_
    rw [hsd]
    unfold Disk.loads
    rw [hfile]
    exact load_mixed hb2 hb1 hlen
  have hS : ∀ d : Disk, Shut f (d.setSpace w1.spaceDir (some (some (overwrite b2 (overwrite b1 []))))) w1.spaceDir := by
    intro d
    refine shut_of_loads (by rw [hfile]; simp) hio fun s => ?_
    unfold Disk.loads
    rw [hfile]
    simp [load_mixed hb2 hb1 hlen]
  refine shut_gets (shut_congr (hS _) (shut_steps (hS _) ⟨fun i p hp => ?_, fun i p hp => ?_⟩ hW').1) ho' hg'
  · rcases upd_cases hp with h | h
    · cases h; exact Or.inl ⟨_, rfl⟩
    · rcases upd_cases h with h | h
      · cases h; exact Or.inl ⟨_, rfl⟩
      · cases h
  · rcases upd_cases hp with h | h
    · cases h; trivial
    · rcases upd_cases h with h | h
      · cases h; trivial
      · cases h

/-! ### Two new tags -/

/-- How long an object is. -/
def objLen (sh : Bool) (l : List (Str × Val)) : Nat := (l.map fun e => (quote sh e.1).length + 2 + (emit sh e.2).length).sum

theorem tail_len (sh : Bool) (l : List (Str × Val)) : (emitFieldsTail sh (fields l)).length = objLen sh l + 1 := by
  induction l with
  | nil => simp [fields, emitFieldsTail, objLen]
  | cons e l ih =>
    simp only [fields, emitFieldsTail, List.length_cons, List.length_append, ih]
    simp only [objLen, List.map_cons, List.sum_cons]
    omega

theorem obj_len (sh : Bool) (e : Str × Val) (l : List (Str × Val)) : (emit sh (.obj (fields (e :: l)))).length = objLen sh (e :: l) + 1 := by
  simp only [fields, emit, emitFields, List.length_cons, List.length_append, tail_len]
  simp only [objLen, List.map_cons, List.sum_cons]
  omega

theorem names_len (sh : Bool) (l : List (Str × Str)) (h : l ≠ []) :
    (emit sh (strMapJ l)).length = (l.map fun e => (quote sh e.1).length + 2 + (quote sh e.2).length).sum + 1 := by
  unfold strMapJ
  have hp := sortBy_perm Prod.fst l
  cases hs : sortBy Prod.fst l with
  | nil => rw [hs] at hp; exact absurd hp.symm.eq_nil h
  | cons e r =>
    rw [List.map_cons, obj_len, objLen]
    have := (hp.map fun e => (quote sh e.1).length + 2 + (quote sh e.2).length).sum_nat
    rw [← this, hs]
    simp only [List.map_cons, List.map_map, Function.comp_def, emit]

theorem tree_len (sh : Bool) (d : TreeDump) (t1 t2 : GoMap Str) (h : (emit sh (nameMapJ t2)).length < (emit sh (nameMapJ t1)).length) :
    (marshalDump sh { d with tags := t2 }).length < (marshalDump sh { d with tags := t1 }).length := by
  unfold marshalDump dumpFieldsJ
  simp only [obj_len, objLen, List.map_cons, List.map_nil, List.sum_cons, List.sum_nil]
  omega

theorem names_dumps {heap : List NodeObj} {m : GoMap Ref} {m' : GoMap Str} (h : DumpsNames heap m m') {name : Str} (hn : m.get name = none) {r : Ref} {o : NodeObj}
    (ho : heap[r]? = some o) : DumpsNames heap (some (AL.put m.entries name r)) (some ((name, o.id.hex) :: m'.entries)) := by
  have hg : (AL.keys m'.entries).Nodup ∧ ∀ k v, AL.get m'.entries k = some v ↔ ∃ r o, AL.get m.entries k = some r ∧ heap[r]? = some o ∧ v = o.id.hex := by
    cases h with
    | nil => exact ⟨by simp [AL.keys], by simp⟩
    | mk h1 h2 => exact ⟨h1, h2⟩
  refine .mk ?_ fun k v => ?_
  · simp only [AL.keys, List.map_cons, List.nodup_cons]
    refine ⟨fun hm => ?_, hg.1⟩
    obtain ⟨v, hv⟩ := AL.mem_keys_iff.1 hm
    obtain ⟨r', _, h', _⟩ := (hg.2 _ _).1 hv
    exact absurd (hn.symm.trans h') (by simp)
  · rw [AL.get_cons, AL.get_put]
    split
    · constructor
      · intro hv; cases hv; exact ⟨r, o, rfl, ho, rfl⟩
      · rintro ⟨r', o', hr, ho', rfl⟩
        cases hr; rw [ho] at ho'; cases ho'; rfl
    · exact hg.2 k v

/-- What a new tag does to the text of a tree. -/
theorem tag_dumps {s s' : TS} {w : Ws} {name ref : Str} {d : TreeDump} (hw : WF s) (hd : Dumps s d) (h : (Edit.addTag name ref false).apply s w = .ok s') :
    ∃ u : UID, Dumps s' { d with tags := some ((name, u.hex) :: d.tags.entries) } := by
  simp only [Edit.apply, Ws.addTag] at h
  cases hx : w.search s ref with
  | ok x =>
    rw [hx] at h
    cases x with
    | none => cases h
    | some nk =>
      simp only [Res.bind, Bool.not_false, Bool.and_true] at h
      split at h
      · cases h
      · rename_i hnew
        cases ho : nk.1.bind (s.heap[·]?) with
        | none => rw [ho] at h; cases h
        | some o =>
          rw [ho] at h
          simp only [TS.addTag, GoMap.assign_ensure] at h
          cases hr : s.tree.nodes.get o.id.hex with
          | none => rw [hr] at h; cases h
          | some r =>
            rw [hr] at h
            cases h
            obtain ⟨o', ho', _⟩ := hw.idx _ _ hr
            refine ⟨o'.id, hd.nodes, hd.branches, names_dumps hd.tags ?_ ho'⟩
            cases hg : s.tree.tags.get name with
            | none => rfl
            | some x => exact absurd (by simp [getByTag, hg]) hnew
  | err e => rw [hx] at h; cases h
  | panic => rw [hx] at h; cases h
  | diverge => rw [hx] at h; cases h

theorem quoteBody_safe (sh : Bool) {s : Str} (h : ∀ b ∈ s, b < (0x80 : UInt8) ∧ safe b = true) : quoteBody sh s = s := by
  induction s with
  | nil => rfl
  | cons a r ih =>
    obtain ⟨h1, h2⟩ := h a (by simp)
    obtain ⟨t, h3, h4⟩ := chunks_cons a r
    rw [head_ascii h1] at h3 h4
    simp only [Chunk.src, List.singleton_append, List.cons.injEq, true_and] at h3
    subst h3
    have ih := ih fun b hb => h b (by simp [hb])
    unfold quoteBody at ih ⊢
    rw [h4, List.flatMap_cons, ih]
    simp [quoteChunk, h2]

theorem hexDigit_safe : ∀ n : Fin 16, Hex.digit n.val < (0x80 : UInt8) ∧ safe (Hex.digit n.val) = true := by decide

theorem hex_safe (l : Str) : ∀ b ∈ Hex.encode l, b < (0x80 : UInt8) ∧ safe b = true := by
  induction l with
  | nil => simp [Hex.encode]
  | cons a r ih =>
    intro b hb
    have ha := a.toNat_lt
    simp only [Hex.encode, List.mem_cons] at hb
    rcases hb with rfl | rfl | hb
    · exact hexDigit_safe ⟨a.toNat / 16, by omega⟩
    · exact hexDigit_safe ⟨a.toNat % 16, by omega⟩
    · exact ih b hb

theorem hex_quote (sh : Bool) (u : UID) : (quote sh u.hex).length = 34 := by
  unfold quote
  rw [show quoteBody sh u.hex = u.hex from quoteBody_safe sh (hex_safe _)]
  show (0x22 :: (u.hex ++ [0x22])).length = 34
  simp [C01_hex_length]

/-- **C43 (violated).** Two commands that each put a new tag on a commit, in one workspace or in two of the same space, are enough if
their names are not equally long (as they stand in the file). Both succeed, and the space is lost. -/
theorem C43_violated_tags {d : Disk} (hd : Reachable E d) {cwd1 cwd2 : Str} (hout1 : E.Outside (Path.abs cwd1 (lit ".")))
    (hout2 : E.Outside (Path.abs cwd2 (lit "."))) {w1 w2 : OpenWs} (hg1 : Gets E d cwd1 (lit ".") w1) (hg2 : Gets E d cwd2 (lit ".") w2)
    (hspace : w1.spaceID = w2.spaceID) {name1 ref1 name2 ref2 : Str} {s1 s2 : TS} (h1 : (Edit.addTag name1 ref1 false).apply w1.tree w1.ws = .ok s1)
    (h2 : (Edit.addTag name2 ref2 false).apply w2.tree w2.ws = .ok s2) (hlen : (quote E.sh name1).length ≠ (quote E.sh name2).length) :
    ∃ W, Sys.Steps E Faults.none ⟨d, fun _ => none⟩ W ∧ Succeeded W 0 ∧ Succeeded W 1 ∧
      (∀ cwd' path' w', E.Outside (Path.abs cwd' path') → Gets E d cwd' path' w' → w'.spaceDir = w1.spaceDir → ∀ w2, ¬ Gets E W.disk cwd' path' w2) ∧
      ∀ (f : Faults) (W' : World), f.io = false → Sys.Steps E f W W' → ∀ cwd' path' w', E.Outside (Path.abs cwd' path') → Gets E W'.disk cwd' path' w' →
        w'.spaceDir ≠ w1.spaceDir := by
  obtain ⟨g, hs⟩ := steady_reachable hd
  obtain ⟨_, _, _, hF1⟩ := found_of_gets hs hout1 hg1
  obtain ⟨_, _, _, hF2⟩ := found_of_gets hs hout2 hg2
  have hdirs : w1.spaceDir = w2.spaceDir := by rw [hF1.opens.dir, hF2.opens.dir, hspace]
  have htree := loads_same hout1 hout2 hg1 hg2 hdirs
  have hw := wf_of_reach (opens_reach hF1.opens)
  obtain ⟨D, hD⟩ := dumps_exists hw
  obtain ⟨v1, hd1⟩ := tag_dumps hw hD h1
  rw [htree] at hw hD
  obtain ⟨v2, hd2⟩ := tag_dumps hw hD h2
  have key : ∀ (a b : Str) (x y : UID), (quote E.sh b).length < (quote E.sh a).length →
      (marshalDump E.sh { D with tags := some ((b, y.hex) :: D.tags.entries) }).length < (marshalDump E.sh { D with tags := some ((a, x.hex) :: D.tags.entries) }).length := by
    intro a b x y h
    refine tree_len _ _ _ _ ?_
    simp only [nameMapJ]
    rw [names_len _ _ (by simp), names_len _ _ (by simp)]
    simp only [List.map_cons, List.sum_cons]
    rw [hex_quote, hex_quote]
    omega
  rcases Nat.lt_or_gt_of_ne hlen with h | h
  · obtain ⟨W, a1, a2, a3, a4, a5⟩ := C43_violated_clash hd hout2 hout1 hg2 hg1 hspace.symm h2 h1 ⟨_, hd2, rfl⟩ ⟨_, hd1, rfl⟩ (key _ _ _ _ h)
    exact ⟨W, a1, a2, a3, by rw [hdirs]; exact a4, by rw [hdirs]; exact a5⟩
  · exact C43_violated_clash hd hout1 hout2 hg1 hg2 hspace h1 h2 ⟨_, hd1, rfl⟩ ⟨_, hd2, rfl⟩ (key _ _ _ _ h)

end
end Verif
