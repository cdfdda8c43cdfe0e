/-
Exchanges between MPI processes: the results do not depend on the speeds of the processes and no process waits for ever (C113), ghosts (C114),
tags (C115).
-/
import Verif.Lemmas.Mpi
import Verif.Lemmas.MpiGhost

namespace Samurai

section
variable {σ μ : Type}

/-- C113: if the rounds of exchanges succeed when all the processes do each of them together, then in every execution, whatever the speeds of the
processes and whether the sends are buffered or not, the number of steps is bounded; a process that has not finished can always go on, or waits for
another one that can; and when all the processes have finished, each of them has the memory of the rounds done together and no message is left. -/
theorem C113_exchanges (size : Nat) (strict : Bool) (rounds : List (MpiRound σ μ)) (s s' : Nat → σ) (h : Together size rounds s s') :
    ∃ N, ∀ k x, MpiRun size strict k (MpiSys.start rounds s) x → k ≤ N ∧ (¬ x.Finished size → ∃ y, MpiStep size strict x y) ∧
      (x.Finished size → (∀ p < size, (x.proc p).loc = s' p) ∧ ∀ p q, x.net p q = []) := by
  obtain ⟨st, mid, ht, h0, h1⟩ := h.trace
  refine ⟨sysLeft size rounds mid (MpiSys.start rounds s), fun k x hr => ?_⟩
  subst h0
  obtain ⟨⟨rd, hi⟩, e⟩ := run_inv ht hr _ (start_inv ht)
  refine ⟨by omega, step_exists ht strict hi, fun hf => ?_⟩
  obtain ⟨a, b⟩ := inv_finished hi hf
  rw [h1] at a
  exact ⟨a, b⟩

/-- C113: all the executions can be completed, and two executions that finish give the same memories. -/
theorem C113_deterministic (size : Nat) (rounds : List (MpiRound σ μ)) (s s' : Nat → σ) (h : Together size rounds s s') :
    (∀ strict k x, MpiRun size strict k (MpiSys.start rounds s) x → ∃ k' y, MpiRun size strict k' (MpiSys.start rounds s) y ∧ k ≤ k' ∧ y.Finished size) ∧
    ∀ strict strict' k k' x y, MpiRun size strict k (MpiSys.start rounds s) x → MpiRun size strict' k' (MpiSys.start rounds s) y →
      x.Finished size → y.Finished size → ∀ p < size, (x.proc p).loc = (y.proc p).loc := by
  constructor
  · intro strict k x hr
    obtain ⟨N, hN⟩ := C113_exchanges size strict rounds s s' h
    obtain ⟨j, hj⟩ : ∃ j, N - k = j := ⟨_, rfl⟩
    induction j generalizing k x with
    | zero =>
      refine ⟨k, x, hr, le_rfl, ?_⟩
      by_contra hf
      obtain ⟨y, hy⟩ := (hN k x hr).2.1 hf
      have := (hN _ y (.step _ _ _ _ hr hy)).1
      omega
    | succ j ih =>
      by_cases hf : x.Finished size
      · exact ⟨k, x, hr, le_rfl, hf⟩
      · obtain ⟨y, hy⟩ := (hN k x hr).2.1 hf
        obtain ⟨k', z, h1, h2, h3⟩ := ih _ y (.step _ _ _ _ hr hy) (by omega)
        exact ⟨k', z, h1, by omega, h3⟩
  · intro strict strict' k k' x y hx hy fx fy p hp
    obtain ⟨N, hN⟩ := C113_exchanges size strict rounds s s' h
    obtain ⟨N', hN'⟩ := C113_exchanges size strict' rounds s s' h
    rw [((hN k x hx).2.2 fx).1 p hp, ((hN' k' y hy).2.2 fy).1 p hp]

/-- Each process adds the numbers of the other two. -/
def sumRound : MpiRound Nat Nat where
  work := fun p s => some (s + p)
  peers := fun p _ => mpiOthers 3 p
  payload := fun _ _ s => some s
  use := fun _ _ m s => some (s + m)

/-- Two rounds of three processes. -/
example : Together 3 [sumRound, sumRound] (fun p => 10 * p) fun _ => 102 := by
  refine .cons _ _ _ (fun p => 11 * p) (fun p _ => 11 * p) (fun _ => 33) _ ⟨?_, ?_, ?_, ?_, ?_, ?_⟩
    (.cons _ _ _ (fun p => 33 + p) (fun p _ => 33 + p) _ _ ⟨?_, ?_, ?_, ?_, ?_, ?_⟩ (.nil _))
  all_goals intro p hp
  all_goals first
    | (have : p = 0 ∨ p = 1 ∨ p = 2 := by omega
       rcases this with rfl | rfl | rfl <;> decide)
    | exact others_nodup 3 p
    | exact fun q hq => (mem_others.1 hq).1
    | exact fun q hq h => mem_others.2 ⟨hp, Ne.symm (mem_others.1 h).2⟩
    | exact fun q _ => rfl

/-- A round in which process 0 receives from process 1, which sends nothing to it. -/
def oneSided : MpiRound Nat Nat where
  work := fun _ s => some s
  peers := fun p _ => if p = 0 then [1] else []
  payload := fun _ _ s => some s
  use := fun _ _ m s => some (s + m)

/-- When the neighbours are not symmetric, as here, a process can wait for ever: the hypothesis is needed. -/
example (strict : Bool) : ∃ k x, MpiRun 2 strict k (MpiSys.start [oneSided] fun _ => 5) x ∧ ¬ x.Finished 2 ∧ ∀ y, ¬ MpiStep 2 strict x y := by
  let x0 : MpiSys Nat Nat := MpiSys.start [oneSided] fun _ => 5
  let x1 := x0.setProc 0 { loc := 5, todo := [oneSided], busy := true, sends := [1], recvs := [1] }
  let x2 := (x1.setProc 0 { x1.proc 0 with sends := [] }).setNet 0 1 (x1.net 0 1 ++ [5])
  let x3 := x2.setProc 1 { loc := 5, todo := [oneSided], busy := true, sends := [], recvs := [] }
  let x4 := x3.setProc 1 { x3.proc 1 with todo := [], busy := false }
  have r1 : MpiStep 2 strict x0 x1 := .begin x0 0 oneSided [] 5 (by omega) rfl rfl rfl
  have r2 : MpiStep 2 strict x1 x2 := .send x1 0 1 oneSided [] [] 5 (by omega) rfl rfl rfl rfl
  have r3 : MpiStep 2 strict x2 x3 := .begin x2 1 oneSided [] 5 (by omega) rfl rfl rfl
  have r4 : MpiStep 2 strict x3 x4 := .wait x3 1 oneSided [] (by omega) rfl rfl rfl rfl (fun _ q => rfl)
  refine ⟨4, x4, .step _ _ _ _ (.step _ _ _ _ (.step _ _ _ _ (.step _ _ _ _ (.refl _) r1) r2) r3) r4, fun hf => ?_, fun y hy => ?_⟩
  · have : (x4.proc 0).todo = [] := hf 0 (by omega)
    cases this
  · cases hy with
    | begin p R rest s hp ht hb hw =>
      obtain rfl | rfl : p = 0 ∨ p = 1 := by omega
      · cases hb
      · cases ht
    | send p q R rest l m hp ht hb hs hm =>
      obtain rfl | rfl : p = 0 ∨ p = 1 := by omega
      · cases hs
      · cases ht
    | recv p q R rest l m ms s hp ht hb hs hr hn hu =>
      obtain rfl | rfl : p = 0 ∨ p = 1 := by omega
      · cases hr
        cases hn
      · cases ht
    | wait p R rest hp ht hb hs hr hw =>
      obtain rfl | rfl : p = 0 ∨ p = 1 := by omega
      · cases hr
      · cases ht

end

/-! ### ghosts and tags -/

section
variable {K : Type} {n size : Nat} {M : Nat → MpiMesh}

theorem has_iff {s : MpiLocal K} (hw : s.mesh.ref.WF n) {l : Nat} {c : List Int} {k : Nat} {x : K} :
    s.Has n l c k x ↔ s.mesh.ref.Mem n l c ∧ s.u (numOf n s.mesh.ref l c) k = x := by
  constructor
  · rintro ⟨i, h1, h2⟩
    obtain ⟨h3, rfl⟩ := numbered_numOf hw h1
    exact ⟨h3, h2⟩
  · rintro ⟨h1, h2⟩
    exact ⟨_, numOf_numbered hw h1, h2⟩

/-- The last element of the list decides. -/
theorem foldl_last {α : Type} (f : Nat → α) (qs : List Nat) (hs : qs.Pairwise (· < ·)) {q : Nat} (hq : q ∈ qs) (hl : ∀ q' ∈ qs, q' ≤ q) (x : α) :
    qs.foldl (fun _ q => f q) x = f q := by
  induction qs generalizing x with
  | nil => simp at hq
  | cons a qs ih =>
    rw [List.foldl_cons]
    obtain ⟨h1, h2⟩ := List.pairwise_cons.1 hs
    rcases List.mem_cons.1 hq with rfl | hq'
    · cases qs with
      | nil => rfl
      | cons b qs =>
        have := h1 b List.mem_cons_self
        have := hl b (by simp)
        omega
    · exact ih h2 hq' (fun q' h => hl q' (List.mem_cons_of_mem _ h)) _

theorem others_sorted (size p : Nat) : (mpiOthers size p).Pairwise (· < ·) := List.pairwise_lt_range.filter _

open Classical in
/-- Every execution of exchanges of the levels `ls`, after the exchange of the meshes. -/
theorem exchanges_run (h : MpiMeshes n size M) {out : Bool} {comb : K → K → K} {R : Nat → MpiRound (MpiLocal K) (MpiMsg K)} {ls : List Nat} (hnd : ls.Nodup)
    (hl : ∀ l ∈ ls, ∀ p < size, l ≤ (M p).ref.maxSize) (hx : ∀ l ∈ ls, Exchanges n size M out comb l (R l)) (s : Nat → MpiLocal K)
    (hs : ∀ p < size, (s p).mesh = M p) (strict : Bool) :
    ∃ N, ∀ j x, MpiRun size strict j (MpiSys.start (updateMeshNeighbour size :: ls.map R) s) x → j ≤ N ∧ (¬ x.Finished size → ∃ y, MpiStep size strict x y) ∧
      (x.Finished size → ∀ p < size, (x.proc p).loc.mesh = M p ∧ (∀ q < size, q ≠ p → (x.proc p).loc.copy q = M q) ∧
        (∀ i, ∀ k ≠ 0, (x.proc p).loc.u i k = (s p).u i k) ∧
        ∀ l c, (M p).ref.Mem n l c → (x.proc p).loc.u (numOf n (M p).ref l c) 0 =
          if l ∈ ls then ((mpiOthers size p).filter fun q => decide (Gives n M out l p q c)).foldl (fun a q => comb a ((s q).u (numOf n (M q).ref l c) 0))
            ((s p).u (numOf n (M p).ref l c) 0) else (s p).u (numOf n (M p).ref l c) 0) := by
  obtain ⟨msg, s1, a1, a2, a3⟩ := mesh_together s hs
  obtain ⟨s2, b1, b2, b3⟩ := levels_together h ls hnd hl hx s1 a2
  obtain ⟨N, hN⟩ := C113_exchanges size strict _ s s2 (.cons _ _ _ _ _ _ _ a1 b1)
  refine ⟨N, fun j x hr => ⟨(hN j x hr).1, (hN j x hr).2.1, fun hf p hp => ?_⟩⟩
  rw [((hN j x hr).2.2 hf).1 p hp]
  refine ⟨(b2 p hp).1, (b2 p hp).2, fun i k hk => by rw [(b3 p hp).1 i k hk, a3 p hp], fun l c hc => ?_⟩
  rw [(b3 p hp).2 l c hc]
  have key : ∀ (qs : List Nat), (∀ q ∈ qs, q < size) → ∀ x,
      qs.foldl (fun a q => comb a ((s1 q).u (numOf n (M q).ref l c) 0)) x = qs.foldl (fun a q => comb a ((s q).u (numOf n (M q).ref l c) 0)) x := by
    intro qs
    induction qs with
    | nil => intro _ x; rfl
    | cons q qs ih =>
      intro hq x
      rw [List.foldl_cons, List.foldl_cons, a3 q (hq q List.mem_cons_self), ih fun q' hq' => hq q' (List.mem_cons_of_mem _ hq')]
  rw [a3 p hp, key _ fun q hq => (mem_others.1 (List.mem_filter.1 hq).1).1]

/-- C114: the ghosts of a scalar field. The processes have any meshes, any copies of the meshes of the others and any values; they do
`update_mesh_neighbour()` and then `update_ghost_subdomains(field)` for the levels `lo` to `hi`. No execution blocks; when all have finished, the copies
are the meshes of the others, and a cell of the reference mesh of `p` that is in the reference mesh of another process `q` and in the subdomain of `q`
has the value it had in `q` (the last such `q`, if there are several); all the other cells have kept their values. -/
theorem C114_ghosts (h : MpiMeshes n size M) (lo hi : Nat) (hhi : ∀ p < size, hi ≤ (M p).ref.maxSize) (s : Nat → MpiLocal K)
    (hs : ∀ p < size, (s p).mesh = M p) (strict : Bool) :
    ∃ N, ∀ j x, MpiRun size strict j (MpiSys.start (ghostProgram n 1 size lo hi) s) x → j ≤ N ∧ (¬ x.Finished size → ∃ y, MpiStep size strict x y) ∧
      (x.Finished size → ∀ p < size, (x.proc p).loc.mesh = M p ∧ (∀ q < size, q ≠ p → (x.proc p).loc.copy q = M q) ∧
        ∀ l c v, (s p).Has n l c 0 v →
          (∀ q < size, q ≠ p → lo ≤ l → l ≤ hi → (M q).ref.Mem n l c → (M q).Owns n l c →
            (∀ q' < size, q < q' → q' ≠ p → ¬ ((M q').ref.Mem n l c ∧ (M q').Owns n l c)) → ∀ w, (s q).Has n l c 0 w → (x.proc p).loc.Has n l c 0 w) ∧
          ((l < lo ∨ hi < l ∨ ∀ q < size, q ≠ p → ¬ ((M q).ref.Mem n l c ∧ (M q).Owns n l c)) → (x.proc p).loc.Has n l c 0 v)) := by
  classical
  have hls : ∀ l, l ∈ List.range' lo (hi + 1 - lo) ↔ lo ≤ l ∧ l ≤ hi := fun l => by rw [List.mem_range'_1]; omega
  obtain ⟨N, hN⟩ := exchanges_run h (R := updateGhostSubdomains n 1 size) (ls := List.range' lo (hi + 1 - lo)) (List.nodup_range' (step := 1) (by omega))
    (fun l hl p hp => le_trans ((hls l).1 hl).2 (hhi p hp)) (fun l hl => ghost_exchanges h fun p hp => le_trans ((hls l).1 hl).2 (hhi p hp)) s hs strict
  refine ⟨N, fun j x hr => ⟨(hN j x hr).1, (hN j x hr).2.1, fun hf p hp => ?_⟩⟩
  obtain ⟨e1, e2, _, e4⟩ := (hN j x hr).2.2 hf p hp
  refine ⟨e1, e2, fun l c v hv => ?_⟩
  have hwp := h.refWF p hp
  rw [has_iff (by rw [hs p hp]; exact hwp), hs p hp] at hv
  obtain ⟨hc, hv⟩ := hv
  have e4 := e4 l c hc
  constructor
  · intro q hq hqp l1 l2 hm ho hlast w hw
    rw [has_iff (by rw [hs q hq]; exact h.refWF q hq), hs q hq] at hw
    rw [has_iff (by rw [e1]; exact hwp), e1]
    refine ⟨hc, ?_⟩
    rw [e4, if_pos ((hls l).2 ⟨l1, l2⟩), foldl_last (fun q => (s q).u (numOf n (M q).ref l c) 0) (q := q)]
    · exact hw.2
    · exact (others_sorted size p).filter _
    · exact List.mem_filter.2 ⟨mem_others.2 ⟨hq, hqp⟩, decide_eq_true ⟨hm, ho⟩⟩
    · intro q' hq'
      obtain ⟨h1, h2⟩ := List.mem_filter.1 hq'
      obtain ⟨h3, h4⟩ := mem_others.1 h1
      by_contra hlt
      have hg : Gives n M true l p q' c := by simpa using h2
      exact hlast q' h3 (by omega) h4 hg
  · intro hno
    rw [has_iff (by rw [e1]; exact hwp), e1]
    refine ⟨hc, ?_⟩
    rw [e4, ← hv]
    by_cases hl : l ∈ List.range' lo (hi + 1 - lo)
    · rw [if_pos hl]
      have hl' := (hls l).1 hl
      have : ((mpiOthers size p).filter fun q => decide (Gives n M true l p q c)) = [] := by
        rw [List.filter_eq_nil_iff]
        intro q hq hg
        have hg : Gives n M true l p q c := by simpa using hg
        rcases hno with h1 | h1 | h1
        · omega
        · omega
        · exact h1 q (mem_others.1 hq).1 (mem_others.1 hq).2 hg
      rw [this]
      rfl
    · rw [if_neg hl]

/-- C114: a cell that is in the subdomains of two processes and of no other (a coarse cell across their border): they exchange their values. They agree
after the exchange only if they agreed before. -/
theorem C114_shared_cell (h : MpiMeshes n size M) (lo hi : Nat) (hhi : ∀ p < size, hi ≤ (M p).ref.maxSize) (s : Nat → MpiLocal K)
    (hs : ∀ p < size, (s p).mesh = M p) (strict : Bool) {j : Nat} {x : MpiSys (MpiLocal K) (MpiMsg K)}
    (hr : MpiRun size strict j (MpiSys.start (ghostProgram n 1 size lo hi) s) x) (hf : x.Finished size) {p q : Nat} (hp : p < size) (hq : q < size) (hpq : p ≠ q)
    {l : Nat} {c : List Int} (l1 : lo ≤ l) (l2 : l ≤ hi) (hop : (M p).Owns n l c) (hoq : (M q).Owns n l c)
    (hno : ∀ q' < size, q' ≠ p → q' ≠ q → ¬ (M q').Owns n l c) {v w : K} (hv : (s p).Has n l c 0 v) (hw : (s q).Has n l c 0 w) :
    (x.proc p).loc.Has n l c 0 w ∧ (x.proc q).loc.Has n l c 0 v := by
  obtain ⟨N, hN⟩ := C114_ghosts h lo hi hhi s hs strict
  have H := (hN j x hr).2.2 hf
  have mp : (M p).ref.Mem n l c := by
    have := (has_iff (by rw [hs p hp]; exact h.refWF p hp)).1 hv
    rw [hs p hp] at this
    exact this.1
  have mq : (M q).ref.Mem n l c := by
    have := (has_iff (by rw [hs q hq]; exact h.refWF q hq)).1 hw
    rw [hs q hq] at this
    exact this.1
  exact ⟨((H p hp).2.2 l c v hv).1 q hq (Ne.symm hpq) l1 l2 mq hoq (fun q' h1 h2 h3 h4 => hno q' h1 h3 (by omega) h4.2) w hw,
    ((H q hq).2.2 l c w hw).1 p hp hpq l1 l2 mp hop (fun q' h1 h2 h3 h4 => hno q' h1 (by omega) h3 h4.2) v hv⟩

/-- C115: the tags. After `update_mesh_neighbour()` and `update_tag_subdomains<out>(level, tag, erase)` for the levels `lo` to `hi`, a cell of `p` has the
value it had, combined by `|` (or replaced, if `erase`) with the values it had in the other processes `q` that have it, in the order of their ranks: those
in whose subdomain it is (`out`), or all of them if it is in the subdomain of `p` (`!out`). -/
theorem C115_tags (h : MpiMeshes n size M) (or : K → K → K) (out erase : Bool) (lo hi : Nat) (hhi : ∀ p < size, hi ≤ (M p).ref.maxSize) (s : Nat → MpiLocal K)
    (hs : ∀ p < size, (s p).mesh = M p) (strict : Bool) :
    ∃ N, ∀ j x, MpiRun size strict j (MpiSys.start (updateMeshNeighbour size ::
        (List.range' lo (hi + 1 - lo)).map (updateTagSubdomains n size or out erase)) s) x → j ≤ N ∧ (¬ x.Finished size → ∃ y, MpiStep size strict x y) ∧
      (x.Finished size → ∀ p < size, (x.proc p).loc.mesh = M p ∧
        ∀ l c v, (s p).Has n l c 0 v →
          (lo ≤ l → l ≤ hi → ∀ (qs : List Nat) (w : Nat → K), qs.Pairwise (· < ·) →
            (∀ q, q ∈ qs ↔ q < size ∧ q ≠ p ∧ (M q).ref.Mem n l c ∧ (M (if out then q else p)).Owns n l c) → (∀ q ∈ qs, (s q).Has n l c 0 (w q)) →
            (x.proc p).loc.Has n l c 0 (qs.foldl (fun a q => if erase then w q else or a (w q)) v)) ∧
          (l < lo ∨ hi < l → (x.proc p).loc.Has n l c 0 v)) := by
  classical
  have hls : ∀ l, l ∈ List.range' lo (hi + 1 - lo) ↔ lo ≤ l ∧ l ≤ hi := fun l => by rw [List.mem_range'_1]; omega
  obtain ⟨N, hN⟩ := exchanges_run h (R := updateTagSubdomains n size or out erase) (ls := List.range' lo (hi + 1 - lo)) (List.nodup_range' (step := 1) (by omega))
    (fun l hl p hp => le_trans ((hls l).1 hl).2 (hhi p hp)) (fun l hl => tag_exchanges h (fun p hp => le_trans ((hls l).1 hl).2 (hhi p hp)) or out erase) s hs strict
  refine ⟨N, fun j x hr => ⟨(hN j x hr).1, (hN j x hr).2.1, fun hf p hp => ?_⟩⟩
  obtain ⟨e1, e2, _, e4⟩ := (hN j x hr).2.2 hf p hp
  refine ⟨e1, fun l c v hv => ?_⟩
  have hwp := h.refWF p hp
  rw [has_iff (by rw [hs p hp]; exact hwp), hs p hp] at hv
  obtain ⟨hc, hv⟩ := hv
  have e4 := e4 l c hc
  constructor
  · intro l1 l2 qs w hsort hqs hw
    rw [has_iff (by rw [e1]; exact hwp), e1]
    refine ⟨hc, ?_⟩
    rw [e4, if_pos ((hls l).2 ⟨l1, l2⟩), hv]
    have heq : ((mpiOthers size p).filter fun q => decide (Gives n M out l p q c)) = qs := by
      refine List.Perm.eq_of_pairwise (le := (· < ·)) (fun a b _ _ h1 h2 => by omega) ((others_sorted size p).filter _) hsort ?_
      refine (List.perm_ext_iff_of_nodup ((others_nodup size p).filter _) (hsort.imp fun h => by omega)).2 fun q => ?_
      rw [List.mem_filter, mem_others, hqs]
      rw [decide_eq_true_iff]
      exact ⟨fun ⟨⟨a, b⟩, c⟩ => ⟨a, b, c.1, c.2⟩, fun ⟨a, b, c, d⟩ => ⟨⟨a, b⟩, c, d⟩⟩
    rw [heq]
    clear heq e4
    have : ∀ (qs : List Nat), (∀ q ∈ qs, q < size ∧ (s q).Has n l c 0 (w q)) → ∀ x,
        qs.foldl (fun a q => (if erase then fun _ v => v else or) a ((s q).u (numOf n (M q).ref l c) 0)) x = qs.foldl (fun a q => if erase then w q else or a (w q)) x := by
      intro qs
      induction qs with
      | nil => intro _ x; rfl
      | cons q qs ih =>
        intro hq x
        obtain ⟨q1, q2⟩ := hq q List.mem_cons_self
        rw [has_iff (by rw [hs q q1]; exact h.refWF q q1), hs q q1] at q2
        rw [List.foldl_cons, List.foldl_cons, q2.2, ih fun q' hq' => hq q' (List.mem_cons_of_mem _ hq')]
        cases erase <;> rfl
    exact this qs (fun q hq => ⟨((hqs q).1 hq).1, hw q hq⟩) v
  · intro hno
    rw [has_iff (by rw [e1]; exact hwp), e1]
    refine ⟨hc, ?_⟩
    rw [e4, if_neg (by rw [hls]; omega), hv]

end
end Samurai
