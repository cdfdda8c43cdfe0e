import Verif.Lemmas.Timers

/-!
# C117: what the timers report

The property: a timer reports the time spent in its section, and the table that is printed at
the end of a run accounts for that run.
-/

namespace Samurai.Timers

/-- Every program whose sections are properly bracketed runs without failing, and every timer
then holds the time spent in its section, pauses excluded: never more, and less by at most 999
nanoseconds for each time the section was closed.  The number of calls is the number of times
the section was closed. -/
theorem C117_elapsed (p : Prog) (hp : Bracketed [] p) (t : Nat) :
    ∃ s, exec p ⟨t, []⟩ = some s ∧ s.now = t + duration p ∧ ∀ n,
      1000 * getElapsedTime s.times n ≤ spent n false p ∧
      spent n false p ≤ 1000 * getElapsedTime s.times n + 999 * closings n p ∧
      getStops s.times n = closings n p := by
  obtain ⟨s, h1, h2, h3⟩ := exec_inv p hp (inv_empty t)
  refine ⟨s, h1, h2, fun n => ?_⟩
  obtain ⟨a, b, c⟩ := inv_elapsed h3 n
  simp only [List.not_mem_nil, decide_false, Nat.zero_add] at a b c
  rw [c] at b
  exact ⟨a, b, c⟩

/-- A run of the library between `initialize` and `finalize`, whose sections are never nested,
prints a time "(untimed)" that is never negative: the measured times add up to at most the total
run time. -/
theorem C117_untimed (p : Prog) (hp : OneAtATime none p) (t : Nat) :
    ∃ s, exec (.timed "total runtime" p) ⟨t, []⟩ = some s ∧ 0 ≤ untimed s.times ∧
      getElapsedTime s.times "total runtime" = duration p / 1000 := by
  have hb : Bracketed [] (.timed "total runtime" p) :=
    ⟨List.not_mem_nil, oneAtATime_bracketed p hp (by simp) (by simp)⟩
  obtain ⟨s, h1, h2, h3⟩ := exec_inv _ hb (inv_empty t)
  refine ⟨s, h1, ?_, ?_⟩
  · have hn := h3.nodup
    unfold untimed
    rw [totalMeasured_eq hn]
    have htot := inv_elapsed h3 "total runtime"
    have hk : closings "total runtime" (.timed "total runtime" p) = 1 := by
      simp [closings, closings_total p hp (by simp)]
    have hsp : spent "total runtime" false (.timed "total runtime" p) = duration p := by
      simp [spent, spent_true_of_not_paused p hp (by simp)]
    simp only [List.not_mem_nil, decide_false, Nat.zero_add, hk, hsp] at htot
    set L := (keys s.times).filter (· != "total runtime") with hL
    have hLn : L.Nodup := hn.filter _
    have hle : 1000 * (L.map (getElapsedTime s.times)).sum ≤ duration p := by
      have h4 := sum_spent_le p hp L hLn
      refine le_trans ?_ h4
      have : ∀ M : List String, (∀ n ∈ M, n ≠ "total runtime") →
          1000 * (M.map (getElapsedTime s.times)).sum ≤
            (M.map (fun n => spent n (decide ((none : Option String) = some n)) p)).sum := by
        intro M hM
        induction M with
        | nil => simp
        | cons m M ih =>
          simp only [List.map_cons, List.sum_cons]
          have h5 := ih (fun n hn => hM n (List.mem_cons_of_mem _ hn))
          have h6 := (inv_elapsed h3 m).1
          have hm : m ≠ "total runtime" := hM m List.mem_cons_self
          have h7 : ("total runtime" == m) = false := by simpa using Ne.symm hm
          simp only [List.not_mem_nil, decide_false, Nat.zero_add, spent, Bool.false_or,
            h7] at h6
          simp only [reduceCtorEq, decide_false] at h5 ⊢
          omega
      apply this
      intro n hn
      rw [hL, List.mem_filter] at hn
      simpa using hn.2
    obtain ⟨_, h5, h6⟩ := htot
    rw [h6] at h5
    omega
  · have htot := inv_elapsed h3 "total runtime"
    have hk : closings "total runtime" (.timed "total runtime" p) = 1 := by
      simp [closings, closings_total p hp (by simp)]
    have hsp : spent "total runtime" false (.timed "total runtime" p) = duration p := by
      simp [spent, spent_true_of_not_paused p hp (by simp)]
    simp only [List.not_mem_nil, decide_false, Nat.zero_add, hk, hsp] at htot
    obtain ⟨h4, h5, h6⟩ := htot
    rw [h6] at h5
    omega

/-- Two adaptations with their ghost updates, a step of a scheme, and some work outside. -/
def sampleRun : Prog :=
  .seq (.timed "mesh adaptation" (.seq (.work 5300)
      (.seq (.paused "mesh adaptation" (.timed "ghost update" (.work 2700))) (.work 1500))))
    (.seq (.work 4000) (.seq (.timed "ghost update" (.work 3200))
      (.timed "diffusion operator" (.work 7100))))

example : OneAtATime none sampleRun := by
  simp [sampleRun, OneAtATime]

example : Bracketed [] (.timed "total runtime" sampleRun) := by
  simp [sampleRun, Bracketed]

example : (exec (.timed "total runtime" sampleRun) ⟨77, []⟩).map
    (fun s => (getElapsedTime s.times "ghost update", getElapsedTime s.times "mesh adaptation",
      getElapsedTime s.times "total runtime", untimed s.times)) = some (5, 6, 23, 5) := by
  decide +kernel

/-- The table does not account for a run whose sections are nested: the time of the inner section
is counted twice, and the time printed as "(untimed)" is negative.  A user who puts a timer of
their own around calls of the library (its ghost updates, its schemes) gets this table. -/
theorem C117_nested_refuted :
    ¬ ∀ (p : Prog), Bracketed [] (.timed "total runtime" p) →
      ∀ s, exec (.timed "total runtime" p) ⟨0, []⟩ = some s → 0 ≤ untimed s.times := by
  intro h
  have := h (.timed "time step" (.timed "ghost update" (.work 1000000))) (by simp [Bracketed])
    _ (by decide +kernel : exec _ _ =
      some ⟨1000000, [("total runtime", ⟨0, 1000, 1⟩), ("time step", ⟨0, 1000, 1⟩),
        ("ghost update", ⟨0, 1000, 1⟩)]⟩)
  revert this
  decide +kernel

/-- A section inside itself loses time: the second start overwrites the first, and the time
since the second start is added twice. -/
theorem C117_reentry_refuted :
    ¬ ∀ (p : Prog) (s : State) (n : String), exec p ⟨0, []⟩ = some s →
      spent n false p ≤ 1000 * getElapsedTime s.times n + 999 * closings n p := by
  intro h
  have := h (.timed "a" (.seq (.work 50000) (.timed "a" (.work 10000)))) _ "a"
    (by decide +kernel : exec _ _ = some ⟨60000, [("a", ⟨50000, 20, 2⟩)]⟩)
  revert this
  decide +kernel

/-- A timer that was never started makes `stop` fail: this is what `finalize` meets, with the
timers on, after the `initialize` that takes no arguments. -/
theorem C117_stop_unknown (now : Nat) (ts : Times) (n : String) :
    stop now n ts = none ↔ n ∉ ts.map Prod.fst := by
  have := mem_keys ts n
  unfold keys at this
  rw [this]
  unfold stop
  cases find ts n <;> simp

/-- Under MPI: the smallest time printed is the smallest of all the processes, with a process
that has it; so is the largest, if one process has measured more than the smallest positive
number. -/
theorem C117_mpi_extremes (dblMax dblMin own : Rat) (all : List Rat)
    (hb : ∀ x ∈ all, x < dblMax) (hs : ∃ x ∈ all, dblMin < x) :
    let st := mpiStats dblMax dblMin own all
    (∃ j : Nat, all[j]? = some st.min ∧ st.minrank = j) ∧ (∀ x ∈ all, st.min ≤ x) ∧
    (∃ j : Nat, all[j]? = some st.max ∧ st.maxrank = j) ∧ (∀ x ∈ all, x ≤ st.max) := by
  intro st
  obtain ⟨h1, h2, h3⟩ := minLoop_spec all 0 (dblMax, -1)
  obtain ⟨g1, g2, g3⟩ := maxLoop_spec all 0 (dblMin, -1)
  obtain ⟨x, hx, hxs⟩ := hs
  refine ⟨?_, h2, ?_, g2⟩
  · rcases h3 with h3 | ⟨j, hj, h3⟩
    · have := h2 x hx
      rw [h3] at this
      exact absurd (hb x hx) (not_lt.2 this)
    · refine ⟨j, ?_, ?_⟩
      · have : st.min = all[j] := by
          show (minLoop all 0 (dblMax, -1)).1 = _
          rw [h3]
        rw [this, List.getElem?_eq_getElem hj]
      · show (minLoop all 0 (dblMax, -1)).2 = _
        rw [h3]; simp
  · rcases g3 with g3 | ⟨j, hj, g3⟩
    · have := g2 x hx
      rw [g3] at this
      exact absurd hxs (not_lt.2 this)
    · refine ⟨j, ?_, ?_⟩
      · have : st.max = all[j] := by
          show (maxLoop all 0 (dblMin, -1)).1 = _
          rw [g3]
        rw [this, List.getElem?_eq_getElem hj]
      · show (maxLoop all 0 (dblMin, -1)).2 = _
        rw [g3]; simp

example : mpiStats 1000000 (1 / 1000000) 2 [2, 5, 1] = ⟨1, 2, 5, 1, 2, 1 / 3⟩ := by
  decide +kernel

/-- Under MPI the average that is printed is always the time of the process that prints. -/
theorem C117_mpi_average_is_own (dblMax dblMin own : Rat) (all : List Rat) (h : all ≠ []) :
    (mpiStats dblMax dblMin own all).ave = own := by
  show (all.foldl (fun a _ => a + own) 0) / (all.length : Rat) = own
  rw [foldl_own]
  have : (all.length : Rat) ≠ 0 := by
    have := List.length_pos_iff.2 h
    exact_mod_cast this.ne'
  field_simp
  ring

/-- The average that is printed is not the average of the processes. -/
theorem C117_mpi_average_refuted :
    ¬ ∀ (dblMax dblMin own : Rat) (all : List Rat), all[0]? = some own →
      (∀ x ∈ all, x < dblMax) → (mpiStats dblMax dblMin own all).ave = average all := by
  intro h
  have := h 1000000 (1 / 1000000) 1 [1, 3] rfl (by decide +kernel)
  revert this
  decide +kernel

/-- The deviation that is printed is not the standard deviation, even when the average is right:
only the last process counts. -/
theorem C117_mpi_deviation_refuted :
    ¬ ∀ (dblMax dblMin own : Rat) (all : List Rat), all[0]? = some own →
      (∀ x ∈ all, x < dblMax) → (mpiStats dblMax dblMin own all).ave = average all →
      (mpiStats dblMax dblMin own all).var = variance all := by
  intro h
  have := h 1000000 (1 / 1000000) 2 [2, 1, 3, 2] rfl (by decide +kernel) (by decide +kernel)
  revert this
  decide +kernel

end Samurai.Timers
