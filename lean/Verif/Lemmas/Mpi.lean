import Verif.Spec.Mpi
import Mathlib.Algebra.BigOperators.Intervals
import Mathlib.Data.List.Nodup
import Mathlib.Order.Interval.Finset.Nat
import Mathlib.Tactic.Ring
import Mathlib.Tactic.Linarith

namespace Samurai

section
variable {σ μ : Type}

/-! ### the rounds done together, by number -/

/-- The memories before the rounds, and after the local work. -/
structure MpiTrace (size : Nat) (rounds : List (MpiRound σ μ)) (st mid : Nat → Nat → σ) : Prop where
  round : ∀ r R, rounds[r]? = some R → ∃ M, TogetherRound size R (st r) (mid r) M (st (r + 1))

theorem Together.trace {size : Nat} {rounds : List (MpiRound σ μ)} {s s' : Nat → σ} (h : Together size rounds s s') :
    ∃ st mid, MpiTrace size rounds st mid ∧ st 0 = s ∧ st rounds.length = s' := by
  induction h with
  | nil s => exact ⟨fun _ => s, fun _ => s, ⟨fun r R h => by simp at h⟩, rfl, rfl⟩
  | cons R rest s mid M s1 s2 h ht ih =>
    obtain ⟨st, md, h1, h2, h3⟩ := ih
    refine ⟨fun r => match r with | 0 => s | r + 1 => st r, fun r => match r with | 0 => mid | r + 1 => md r, ⟨?_⟩, rfl, h3⟩
    intro r R' hr
    cases r with
    | zero =>
      obtain rfl : R = R' := by simpa using hr
      exact ⟨M, by rw [← h2] at h; exact h⟩
    | succ r => exact h1.round r R' (by simpa using hr)

/-- The neighbours in a round. -/
def peersAt (rounds : List (MpiRound σ μ)) (mid : Nat → Nat → σ) (r p : Nat) : List Nat :=
  match rounds[r]? with
  | some R => R.peers p (mid r p)
  | none => []

/-- The message of a round. -/
def msgAt (rounds : List (MpiRound σ μ)) (mid : Nat → Nat → σ) (p q r : Nat) : Option μ :=
  match rounds[r]? with
  | some R => R.payload p q (mid r p)
  | none => none

variable {size : Nat} {rounds : List (MpiRound σ μ)} {st mid : Nat → Nat → σ}

/-- The rounds before `r` in which `p` sends to `q`. -/
def activeBefore (rounds : List (MpiRound σ μ)) (mid : Nat → Nat → σ) (p q r : Nat) : List Nat :=
  (List.range r).filter fun r' => decide (q ∈ peersAt rounds mid r' p)

theorem activeBefore_succ (p q r : Nat) : activeBefore rounds mid p q (r + 1) =
    activeBefore rounds mid p q r ++ if q ∈ peersAt rounds mid r p then [r] else [] := by
  unfold activeBefore
  rw [List.range_succ, List.filter_append]
  congr 1
  by_cases h : q ∈ peersAt rounds mid r p <;> simp [h]

theorem activeBefore_prefix (p q : Nat) {r r' : Nat} (h : r ≤ r') : activeBefore rounds mid p q r <+: activeBefore rounds mid p q r' := by
  induction r' with
  | zero => obtain rfl : r = 0 := by omega
            exact List.prefix_rfl
  | succ k ih =>
    rcases Nat.lt_or_ge k r with hk | hk
    · obtain rfl : r = k + 1 := by omega
      exact List.prefix_rfl
    · rw [activeBefore_succ]
      exact (ih hk).trans (List.prefix_append _ _)

/-- What `p` has sent to `q`, as numbers of rounds. -/
def sentTo (rounds : List (MpiRound σ μ)) (mid : Nat → Nat → σ) (a : MpiProc σ μ) (r p q : Nat) : List Nat :=
  activeBefore rounds mid p q r ++ if a.busy = true ∧ q ∈ peersAt rounds mid r p ∧ q ∉ a.sends then [r] else []

/-- What `q` (the process `a`) has received from `p`. -/
def gotFrom (rounds : List (MpiRound σ μ)) (mid : Nat → Nat → σ) (a : MpiProc σ μ) (r p q : Nat) : List Nat :=
  activeBefore rounds mid p q r ++ if a.busy = true ∧ q ∈ peersAt rounds mid r p ∧ p ∉ a.recvs then [r] else []

theorem sentTo_eq (a : MpiProc σ μ) (r p q : Nat) : ∃ k, r ≤ k ∧ sentTo rounds mid a r p q = activeBefore rounds mid p q k := by
  unfold sentTo
  by_cases h : a.busy = true ∧ q ∈ peersAt rounds mid r p ∧ q ∉ a.sends
  · refine ⟨r + 1, by omega, ?_⟩
    rw [activeBefore_succ, if_pos h, if_pos h.2.1]
  · exact ⟨r, le_rfl, by rw [if_neg h, List.append_nil]⟩

/-- What a process must satisfy in its round `r`. -/
structure ProcInv (rounds : List (MpiRound σ μ)) (st mid : Nat → Nat → σ) (p : Nat) (a : MpiProc σ μ) (r : Nat) : Prop where
  todo : a.todo = rounds.drop r
  le : r ≤ rounds.length
  idle : a.busy = false → a.loc = st r p
  busy : a.busy = true → r < rounds.length ∧ ∃ b c, peersAt rounds mid r p = b ++ a.sends ∧ peersAt rounds mid r p = c ++ a.recvs ∧
    (a.sends ≠ [] → c = []) ∧ ∀ R M, rounds[r]? = some R → TogetherRound size R (st r) (mid r) M (st (r + 1)) →
      c.foldlM (fun s q => R.use p q (M q p) s) (mid r p) = some a.loc

/-- The invariant of the executions; `rd p` is the round of `p`. -/
structure MpiInv (size : Nat) (rounds : List (MpiRound σ μ)) (st mid : Nat → Nat → σ) (x : MpiSys σ μ) (rd : Nat → Nat) : Prop where
  proc : ∀ p < size, ProcInv (size := size) rounds st mid p (x.proc p) (rd p)
  net : ∀ p < size, ∀ q < size, (sentTo rounds mid (x.proc p) (rd p) p q).map (msgAt rounds mid p q) =
    (gotFrom rounds mid (x.proc q) (rd q) p q).map (msgAt rounds mid p q) ++ (x.net p q).map some
  out : ∀ p q, ¬ (p < size ∧ q < size) → x.net p q = []

theorem MpiTrace.symm (h : MpiTrace size rounds st mid) {r p q : Nat} (hp : p < size) (hq : q < size) :
    q ∈ peersAt rounds mid r p ↔ p ∈ peersAt rounds mid r q := by
  unfold peersAt
  cases hr : rounds[r]? with
  | none => simp
  | some R =>
    obtain ⟨M, hM⟩ := h.round r R hr
    exact ⟨hM.symm p hp q hq, hM.symm q hq p hp⟩

theorem MpiTrace.nodup (h : MpiTrace size rounds st mid) {r p : Nat} (hp : p < size) : (peersAt rounds mid r p).Nodup := by
  unfold peersAt
  cases hr : rounds[r]? with
  | none => simp
  | some R =>
    obtain ⟨M, hM⟩ := h.round r R hr
    exact hM.nodup p hp

theorem MpiTrace.lt (h : MpiTrace size rounds st mid) {r p q : Nat} (hp : p < size) (hq : q ∈ peersAt rounds mid r p) : q < size := by
  unfold peersAt at hq
  cases hr : rounds[r]? with
  | none => rw [hr] at hq; simp at hq
  | some R =>
    obtain ⟨M, hM⟩ := h.round r R hr
    rw [hr] at hq
    exact hM.lt p hp q hq

theorem peersAt_eq {r p : Nat} {R : MpiRound σ μ} (hr : rounds[r]? = some R) : peersAt rounds mid r p = R.peers p (mid r p) := by
  unfold peersAt; rw [hr]

theorem msgAt_eq {r p q : Nat} {R : MpiRound σ μ} (hr : rounds[r]? = some R) : msgAt rounds mid p q r = R.payload p q (mid r p) := by
  unfold msgAt; rw [hr]

theorem drop_cons {α : Type} {l : List α} {r : Nat} {a : α} {t : List α} (h : l.drop r = a :: t) : l[r]? = some a ∧ t = l.drop (r + 1) ∧ r < l.length := by
  have hlt : r < l.length := by
    by_contra hc
    rw [List.drop_eq_nil_of_le (by omega)] at h
    cases h
  rw [List.drop_eq_getElem_cons hlt] at h
  cases h
  exact ⟨by simp [hlt], rfl, hlt⟩

theorem start_inv (h : MpiTrace size rounds st mid) : MpiInv size rounds st mid (MpiSys.start rounds (st 0)) (fun _ => 0) where
  proc p hp := ⟨rfl, Nat.zero_le _, fun _ => rfl, fun hb => by cases hb⟩
  net p hp q hq := by simp [sentTo, gotFrom, activeBefore, MpiSys.start]
  out p q _ := rfl

/-- The message at the head of a queue is that of the round of the receiver. -/
theorem head_msg (h : MpiTrace size rounds st mid) {x : MpiSys σ μ} {rd : Nat → Nat} (hi : MpiInv size rounds st mid x rd) {p q : Nat} (hp : p < size)
    (hq : q < size) {m : μ} {ms : List μ} (hm : x.net q p = m :: ms) (hr : q ∈ (x.proc p).recvs) (hP : q ∈ peersAt rounds mid (rd p) p) :
    msgAt rounds mid q p (rd p) = some m ∧
    (sentTo rounds mid (x.proc q) (rd q) q p).map (msgAt rounds mid q p) =
      (activeBefore rounds mid q p (rd p) ++ [rd p]).map (msgAt rounds mid q p) ++ ms.map some := by
  have h1 := hi.net q hq p hp
  rw [hm] at h1
  have hg : gotFrom rounds mid (x.proc p) (rd p) q p = activeBefore rounds mid q p (rd p) := by
    unfold gotFrom
    rw [if_neg (fun hc => hc.2.2 hr), List.append_nil]
  rw [hg] at h1
  obtain ⟨k, hk, hs⟩ := sentTo_eq (rounds := rounds) (mid := mid) (x.proc q) (rd q) q p
  rw [hs] at h1 ⊢
  have hlt : rd p < k := by
    by_contra hc
    have := (activeBefore_prefix (rounds := rounds) (mid := mid) q p (show k ≤ rd p by omega)).length_le
    have h2 := congrArg List.length h1
    simp only [List.length_append, List.length_map, List.length_cons] at h2
    omega
  obtain ⟨t, ht⟩ := activeBefore_prefix (rounds := rounds) (mid := mid) q p (show rd p + 1 ≤ k by omega)
  rw [activeBefore_succ, if_pos ((h.symm hp hq).1 hP)] at ht
  rw [← ht] at h1 ⊢
  simp only [List.map_append, List.append_assoc, List.map_cons, List.map_nil, List.singleton_append] at h1 ⊢
  have h3 := List.append_cancel_left h1
  simp only [List.cons_append, List.nil_append, List.cons.injEq] at h3 ⊢
  refine ⟨h3.1, ?_⟩
  rw [h3.2]

/-- A process that changes neither what it has sent nor what it has received. -/
theorem inv_local {x : MpiSys σ μ} {rd : Nat → Nat} (hi : MpiInv size rounds st mid x rd) {p : Nat} (hp : p < size)
    {a : MpiProc σ μ} {r : Nat} (ha : ProcInv (size := size) rounds st mid p a r)
    (h1 : ∀ q, sentTo rounds mid a r p q = sentTo rounds mid (x.proc p) (rd p) p q)
    (h2 : ∀ q < size, gotFrom rounds mid a r q p = gotFrom rounds mid (x.proc p) (rd p) q p) :
    MpiInv size rounds st mid (x.setProc p a) (fun p' => if p' = p then r else rd p') where
  proc p' hp' := by
    simp only [MpiSys.setProc]
    by_cases e : p' = p
    · subst e; simp only [if_true]; exact ha
    · simp only [if_neg e]; exact hi.proc p' hp'
  net a' ha' b hb := by
    have h3 : sentTo rounds mid ((x.setProc p a).proc a') (if a' = p then r else rd a') a' b = sentTo rounds mid (x.proc a') (rd a') a' b := by
      simp only [MpiSys.setProc]
      by_cases e : a' = p
      · subst e; simp only [if_true]; exact h1 b
      · simp only [if_neg e]
    have h4 : gotFrom rounds mid ((x.setProc p a).proc b) (if b = p then r else rd b) a' b = gotFrom rounds mid (x.proc b) (rd b) a' b := by
      simp only [MpiSys.setProc]
      by_cases e : b = p
      · subst e; simp only [if_true]; exact h2 a' ha'
      · simp only [if_neg e]
    rw [h3, h4]
    exact hi.net a' ha' b hb
  out := hi.out

/-- The invariant is kept by the steps. -/
theorem step_inv (h : MpiTrace size rounds st mid) {strict : Bool} {x y : MpiSys σ μ} {rd : Nat → Nat} (hi : MpiInv size rounds st mid x rd)
    (hs : MpiStep size strict x y) : ∃ rd', MpiInv size rounds st mid y rd' := by
  cases hs with
  | begin p R rest s hp ht hb hw =>
    have I := hi.proc p hp
    rw [I.todo] at ht
    obtain ⟨g1, g2, g3⟩ := drop_cons ht
    obtain ⟨M, hM⟩ := h.round _ R g1
    have hmid : s = mid (rd p) p := by
      have := hM.work p hp
      rw [← I.idle hb, hw] at this
      exact Option.some.inj this
    have hP : peersAt rounds mid (rd p) p = R.peers p s := by rw [peersAt_eq g1, hmid]
    refine ⟨_, inv_local hi hp (a := { loc := s, todo := R :: rest, busy := true, sends := R.peers p s, recvs := R.peers p s }) (r := rd p) ⟨?_, I.le, ?_, ?_⟩ ?_ ?_⟩
    · exact ht.symm
    · intro hc; cases hc
    · intro _
      refine ⟨g3, [], [], by simpa using hP, by simpa using hP, fun _ => rfl, fun R' M' _ _ => by simp [hmid]⟩
    · intro q
      unfold sentTo
      rw [if_neg (by rw [hP]; tauto), if_neg (by rw [hb]; simp)]
    · intro q hq
      unfold gotFrom
      rw [if_neg (by rw [h.symm hq hp, hP]; tauto), if_neg (by rw [hb]; simp)]
  | send p q R rest l m hp ht hb hs hm =>
    have I := hi.proc p hp
    rw [I.todo] at ht
    obtain ⟨g1, g2, g3⟩ := drop_cons ht
    obtain ⟨M, hM⟩ := h.round _ R g1
    obtain ⟨_, b, c, e1, e2, e3, e4⟩ := I.busy hb
    rw [hs] at e1 e3
    have hc : c = [] := e3 (by simp)
    subst hc
    have hloc : (x.proc p).loc = mid (rd p) p := by
      have := e4 R M g1 hM
      simpa using this.symm
    rw [hloc] at hm
    have hnd := h.nodup (r := rd p) hp
    rw [e1] at hnd
    have hql : q ∉ l := ((List.nodup_append.1 hnd).2.1 |> List.nodup_cons.1).1
    have hqP : q ∈ peersAt rounds mid (rd p) p := by rw [e1]; simp
    have hqs := h.lt hp hqP
    refine ⟨rd, ⟨fun p' hp' => ?_, fun a ha b' hb' => ?_, fun a b' hab => ?_⟩⟩
    · simp only [MpiSys.setNet, MpiSys.setProc]
      by_cases e : p' = p
      · subst e
        simp only [if_true]
        refine ⟨I.todo, I.le, fun hc => ?_, fun _ => ⟨g3, b ++ [q], [], by rw [e1]; simp, by simpa using e2, fun _ => rfl, fun R' M' h1 h2 => e4 R' M' h1 h2⟩⟩
        simp only [hb] at hc
        cases hc
      · simp only [if_neg e]; exact hi.proc p' hp'
    · have hgot : gotFrom rounds mid (((x.setProc p { x.proc p with sends := l }).setNet p q (x.net p q ++ [m])).proc b') (rd b') a b' =
          gotFrom rounds mid (x.proc b') (rd b') a b' := by
        simp only [MpiSys.setNet, MpiSys.setProc]
        by_cases e : b' = p
        · subst e; simp only [if_true]; rfl
        · simp only [if_neg e]
      rw [hgot]
      have hold := hi.net a ha b' hb'
      simp only [MpiSys.setNet, MpiSys.setProc]
      by_cases e : a = p
      · subst e
        simp only [if_true, true_and]
        by_cases e' : b' = q
        · subst e'
          simp only [if_true]
          have k1 : sentTo rounds mid { x.proc a with sends := l } (rd a) a b' = sentTo rounds mid (x.proc a) (rd a) a b' ++ [rd a] := by
            unfold sentTo
            rw [if_pos ⟨hb, hqP, hql⟩, if_neg (by rw [hs]; simp), List.append_nil]
          rw [k1, List.map_append, hold, List.map_append, List.append_assoc]
          simp only [List.map_cons, List.map_nil]
          rw [msgAt_eq g1, hm]
        · simp only [if_neg e']
          have k1 : sentTo rounds mid { x.proc a with sends := l } (rd a) a b' = sentTo rounds mid (x.proc a) (rd a) a b' := by
            unfold sentTo
            simp only [hs, List.mem_cons, e', false_or]
          rw [k1, hold]
      · simp only [e, false_and, if_false]
        exact hold
    · simp only [MpiSys.setNet]
      rw [if_neg]
      · exact hi.out a b' hab
      · rintro ⟨rfl, rfl⟩
        exact hab ⟨hp, hqs⟩
  | recv p q R rest l m ms s hp ht hb hs hr hn hu =>
    have I := hi.proc p hp
    rw [I.todo] at ht
    obtain ⟨g1, g2, g3⟩ := drop_cons ht
    obtain ⟨M, hM⟩ := h.round _ R g1
    obtain ⟨_, b, c, e1, e2, e3, e4⟩ := I.busy hb
    rw [hr] at e2
    have hnd := h.nodup (r := rd p) hp
    rw [e2] at hnd
    have hql : q ∉ l := ((List.nodup_append.1 hnd).2.1 |> List.nodup_cons.1).1
    have hqP : q ∈ peersAt rounds mid (rd p) p := by rw [e2]; simp
    have hqs := h.lt hp hqP
    obtain ⟨hm, hrest⟩ := head_msg h hi hp hqs hn (by rw [hr]; simp) hqP
    refine ⟨rd, ⟨fun p' hp' => ?_, fun a ha b' hb' => ?_, fun a b' hab => ?_⟩⟩
    · simp only [MpiSys.setNet, MpiSys.setProc]
      by_cases e : p' = p
      · subst e
        simp only [if_true]
        refine ⟨I.todo, I.le, fun hc => ?_, fun _ => ⟨g3, b, c ++ [q], e1, by rw [e2]; simp, fun hc => absurd hs hc, fun R' M' h1 h2 => ?_⟩⟩
        · simp only [hb] at hc
          cases hc
        · rw [List.foldlM_append, e4 R' M' h1 h2]
          obtain rfl : R = R' := by rw [g1] at h1; exact Option.some.inj h1
          have : M' q p' = m := by
            have h3 := h2.payload q hqs p' (by rw [← peersAt_eq g1]; exact (h.symm hp hqs).1 hqP)
            rw [← msgAt_eq g1, hm] at h3
            exact (Option.some.inj h3).symm
          simp only [Option.bind_eq_bind, Option.bind_some, List.foldlM_cons, List.foldlM_nil, this, hu]
          rfl
      · simp only [if_neg e]; exact hi.proc p' hp'
    · have hsent : sentTo rounds mid (((x.setProc p { x.proc p with loc := s, recvs := l }).setNet q p ms).proc a) (rd a) a b' =
          sentTo rounds mid (x.proc a) (rd a) a b' := by
        simp only [MpiSys.setNet, MpiSys.setProc]
        by_cases e : a = p
        · subst e; simp only [if_true]; rfl
        · simp only [if_neg e]
      rw [hsent]
      have hold := hi.net a ha b' hb'
      simp only [MpiSys.setNet, MpiSys.setProc]
      by_cases e : b' = p
      · subst e
        simp only [if_true, and_true]
        by_cases e' : a = q
        · subst e'
          simp only [if_true]
          have k1 : gotFrom rounds mid { x.proc b' with loc := s, recvs := l } (rd b') a b' = activeBefore rounds mid a b' (rd b') ++ [rd b'] := by
            unfold gotFrom
            rw [if_pos ⟨hb, (h.symm hp ha).1 hqP, hql⟩]
          rw [k1, hrest]
        · simp only [if_neg e']
          have k1 : gotFrom rounds mid { x.proc b' with loc := s, recvs := l } (rd b') a b' = gotFrom rounds mid (x.proc b') (rd b') a b' := by
            unfold gotFrom
            simp only [hr, List.mem_cons, e', false_or]
          rw [k1, hold]
      · simp only [e, and_false, if_false]
        exact hold
    · simp only [MpiSys.setNet]
      rw [if_neg]
      · exact hi.out a b' hab
      · rintro ⟨rfl, rfl⟩
        exact hab ⟨hqs, hp⟩
  | wait p R rest hp ht hb hs hr hw =>
    have I := hi.proc p hp
    have ht' := ht
    rw [I.todo] at ht
    obtain ⟨g1, g2, g3⟩ := drop_cons ht
    obtain ⟨M, hM⟩ := h.round _ R g1
    obtain ⟨_, b, c, e1, e2, e3, e4⟩ := I.busy hb
    rw [hr, List.append_nil] at e2
    refine ⟨_, inv_local hi hp (a := { x.proc p with todo := rest, busy := false }) (r := rd p + 1) ⟨g2, g3, ?_, ?_⟩ ?_ ?_⟩
    · intro _
      have h1 := e4 R M g1 hM
      have h2 := hM.use p hp
      rw [← peersAt_eq g1, e2, h1] at h2
      exact Option.some.inj h2
    · intro hc; cases hc
    · intro q
      unfold sentTo
      rw [activeBefore_succ, if_neg (show ¬ (({ x.proc p with todo := rest, busy := false } : MpiProc σ μ).busy = true ∧ _) from fun hc => by cases hc.1), List.append_nil]
      congr 1
      simp [hb, hs]
    · intro q hq
      unfold gotFrom
      rw [activeBefore_succ, if_neg (show ¬ (({ x.proc p with todo := rest, busy := false } : MpiProc σ μ).busy = true ∧ _) from fun hc => by cases hc.1), List.append_nil]
      congr 1
      simp [hb, hr]

/-! ### progress -/

/-- A process whose messages are all there receives. -/
theorem can_recv (h : MpiTrace size rounds st mid) (strict : Bool) {x : MpiSys σ μ} {rd : Nat → Nat} (hi : MpiInv size rounds st mid x rd) {p : Nat} (hp : p < size)
    (hb : (x.proc p).busy = true) (hs : (x.proc p).sends = []) {q : Nat} {l : List Nat} (hr : (x.proc p).recvs = q :: l)
    (hq : q < size → rd p < rd q ∨ (rd q = rd p ∧ (x.proc q).busy = true ∧ (x.proc q).sends = [])) : ∃ y, MpiStep size strict x y := by
  have I := hi.proc p hp
  obtain ⟨g3, b, c, e1, e2, e3, e4⟩ := I.busy hb
  obtain ⟨R, g1⟩ : ∃ R, rounds[rd p]? = some R := ⟨rounds[rd p], by simp [g3]⟩
  have ht : (x.proc p).todo = R :: rounds.drop (rd p + 1) := by
    rw [I.todo, List.drop_eq_getElem_cons g3]
    congr 1
    rw [List.getElem?_eq_getElem g3] at g1
    exact Option.some.inj g1
  obtain ⟨M, hM⟩ := h.round _ R g1
  rw [hr] at e2
  have hqP : q ∈ peersAt rounds mid (rd p) p := by rw [e2]; simp
  have hqs := h.lt hp hqP
  have hpq := (h.symm hp hqs).1 hqP
  have hne : x.net q p ≠ [] := by
    intro hn
    have h1 := congrArg List.length (hi.net q hqs p hp)
    rw [hn] at h1
    simp only [List.length_append, List.length_map, List.map_nil, List.length_nil, Nat.add_zero] at h1
    have hg : gotFrom rounds mid (x.proc p) (rd p) q p = activeBefore rounds mid q p (rd p) := by
      unfold gotFrom
      rw [if_neg (by rw [hr]; simp), List.append_nil]
    rw [hg] at h1
    have h2 : (activeBefore rounds mid q p (rd p + 1)).length ≤ (sentTo rounds mid (x.proc q) (rd q) q p).length := by
      rcases hq hqs with hlt | ⟨heq, hb', hs'⟩
      · refine ((activeBefore_prefix q p (show rd p + 1 ≤ rd q by omega)).trans ?_).length_le
        unfold sentTo
        exact List.prefix_append _ _
      · unfold sentTo
        rw [heq, activeBefore_succ, if_pos hpq, if_pos ⟨hb', hpq, by rw [hs']; simp⟩]
    rw [activeBefore_succ, if_pos hpq, List.length_append, List.length_singleton] at h2
    omega
  obtain ⟨m, ms, hn⟩ := List.exists_cons_of_ne_nil hne
  obtain ⟨hm, _⟩ := head_msg h hi hp hqs hn (by rw [hr]; simp) hqP
  have hMm : M q p = m := by
    have h3 := hM.payload q hqs p (by rw [← peersAt_eq g1]; exact hpq)
    rw [← msgAt_eq g1, hm] at h3
    exact (Option.some.inj h3).symm
  have huse := hM.use p hp
  rw [← peersAt_eq g1, e2, List.foldlM_append, e4 R M g1 hM] at huse
  simp only [Option.bind_eq_bind, Option.bind_some, List.foldlM_cons] at huse
  obtain ⟨s, hs1, _⟩ := Option.bind_eq_some_iff.1 huse
  rw [hMm] at hs1
  exact ⟨_, MpiStep.recv x p q R _ l m ms s hp ht hb hs hr hn hs1⟩

/-- Some process can always do something. -/
theorem step_exists (h : MpiTrace size rounds st mid) (strict : Bool) {x : MpiSys σ μ} {rd : Nat → Nat} (hi : MpiInv size rounds st mid x rd)
    (hf : ¬ x.Finished size) : ∃ y, MpiStep size strict x y := by
  have hunf : ∃ p, p < size ∧ rd p < rounds.length := by
    by_contra hc
    push Not at hc
    refine hf fun p hp => ?_
    have I := hi.proc p hp
    rw [I.todo]
    exact List.drop_eq_nil_of_le (hc p hp)
  have todo : ∀ p, p < size → rd p < rounds.length → ∃ R M, (x.proc p).todo = R :: rounds.drop (rd p + 1) ∧ rounds[rd p]? = some R ∧
      TogetherRound size R (st (rd p)) (mid (rd p)) M (st (rd p + 1)) := by
    intro p hp hl
    have g1 : rounds[rd p]? = some rounds[rd p] := by simp [hl]
    obtain ⟨M, hM⟩ := h.round _ _ g1
    exact ⟨rounds[rd p], M, by rw [(hi.proc p hp).todo, List.drop_eq_getElem_cons hl], g1, hM⟩
  -- a process that has not begun its round begins it
  by_cases c1 : ∃ p, p < size ∧ rd p < rounds.length ∧ (x.proc p).busy = false
  · obtain ⟨p, hp, hl, hb⟩ := c1
    obtain ⟨R, M, ht, g1, hM⟩ := todo p hp hl
    have hw := hM.work p hp
    rw [← (hi.proc p hp).idle hb] at hw
    exact ⟨_, MpiStep.begin x p R _ _ hp ht hb hw⟩
  push Not at c1
  have c1' : ∀ p, p < size → rd p < rounds.length → (x.proc p).busy = true := fun p hp hl => by simpa using c1 p hp hl
  -- a process that has something to send sends it
  by_cases c2 : ∃ p, p < size ∧ rd p < rounds.length ∧ (x.proc p).sends ≠ []
  · obtain ⟨p, hp, hl, hs⟩ := c2
    obtain ⟨R, M, ht, g1, hM⟩ := todo p hp hl
    have hb := c1' p hp hl
    obtain ⟨q, l, hs'⟩ := List.exists_cons_of_ne_nil hs
    obtain ⟨_, b, c, e1, e2, e3, e4⟩ := (hi.proc p hp).busy hb
    obtain rfl := e3 hs
    have hloc : (x.proc p).loc = mid (rd p) p := by simpa using (e4 R M g1 hM).symm
    have hm := hM.payload p hp q (by rw [← peersAt_eq g1, e1, hs']; simp)
    rw [← hloc] at hm
    exact ⟨_, MpiStep.send x p q R _ l _ hp ht hb hs' hm⟩
  push Not at c2
  -- the slowest process
  obtain ⟨p, ⟨hp, hl⟩, hmin⟩ : ∃ p, (p < size ∧ rd p < rounds.length) ∧ ∀ q, q < size → rd q < rounds.length → rd p ≤ rd q := by
    obtain ⟨p0, hp0⟩ := hunf
    have hex : ∃ n p, p < size ∧ rd p < rounds.length ∧ rd p = n := ⟨rd p0, p0, hp0.1, hp0.2, rfl⟩
    classical
    obtain ⟨p, h1, h2, h3⟩ := Nat.find_spec hex
    exact ⟨p, ⟨h1, h2⟩, fun q hq hq' => by rw [h3]; exact Nat.find_min' hex ⟨q, hq, hq', rfl⟩⟩
  have hle : ∀ q, q < size → rd p < rd q ∨ (rd q = rd p ∧ (x.proc q).busy = true ∧ (x.proc q).sends = []) := by
    intro q hq
    by_cases hq' : rd q < rounds.length
    · rcases Nat.lt_or_ge (rd p) (rd q) with h1 | h1
      · exact Or.inl h1
      · exact Or.inr ⟨Nat.le_antisymm h1 (hmin q hq hq'), c1' q hq hq', c2 q hq hq'⟩
    · exact Or.inl (by omega)
  by_cases c3 : ∃ p', p' < size ∧ rd p' = rd p ∧ (x.proc p').recvs ≠ []
  · obtain ⟨p', hp', he, hr⟩ := c3
    obtain ⟨q, l, hr'⟩ := List.exists_cons_of_ne_nil hr
    exact can_recv h strict hi hp' (c1' p' hp' (by omega)) (c2 p' hp' (by omega)) hr' (fun hq => by rw [he]; exact hle q hq)
  push Not at c3
  obtain ⟨R, M, ht, g1, hM⟩ := todo p hp hl
  refine ⟨_, MpiStep.wait x p R _ hp ht (c1' p hp hl) (c2 p hp hl) (c3 p hp rfl) fun _ q => ?_⟩
  by_cases hq : q < size
  · have h1 := congrArg List.length (hi.net p hp q hq)
    simp only [List.length_append, List.length_map] at h1
    have h2 : (sentTo rounds mid (x.proc p) (rd p) p q).length ≤ (gotFrom rounds mid (x.proc q) (rd q) p q).length := by
      rcases hle q hq with hlt | ⟨heq, hb', hs'⟩
      · have h3 : (sentTo rounds mid (x.proc p) (rd p) p q).length ≤ (activeBefore rounds mid p q (rd p + 1)).length := by
          rw [activeBefore_succ]
          unfold sentTo
          by_cases hc : q ∈ peersAt rounds mid (rd p) p
          · rw [if_pos hc]
            split_ifs <;> simp
          · rw [if_neg hc, if_neg (fun hx => hc hx.2.1)]
        refine h3.trans ((activeBefore_prefix p q (show rd p + 1 ≤ rd q by omega)).trans ?_).length_le
        unfold gotFrom
        exact List.prefix_append _ _
      · unfold sentTo gotFrom
        rw [heq, c3 q hq heq, hb', c1' p hp hl, c2 p hp hl]
        simp
    exact List.eq_nil_of_length_eq_zero (by omega)
  · exact hi.out p q (fun hc => hq hc.2)

/-! ### how many steps -/

/-- What the round `r` costs to `p`. -/
def roundCost (rounds : List (MpiRound σ μ)) (mid : Nat → Nat → σ) (p r : Nat) : Nat := 2 + 2 * (peersAt rounds mid r p).length

/-- What is left to do for a process. -/
def procLeft (rounds : List (MpiRound σ μ)) (mid : Nat → Nat → σ) (p : Nat) (a : MpiProc σ μ) : Nat :=
  if a.busy then a.sends.length + a.recvs.length + 1 + ∑ r ∈ Finset.Ico (rounds.length - a.todo.length + 1) rounds.length, roundCost rounds mid p r
  else ∑ r ∈ Finset.Ico (rounds.length - a.todo.length) rounds.length, roundCost rounds mid p r

/-- What is left to do. -/
def sysLeft (size : Nat) (rounds : List (MpiRound σ μ)) (mid : Nat → Nat → σ) (x : MpiSys σ μ) : Nat :=
  ∑ p ∈ Finset.range size, procLeft rounds mid p (x.proc p)

theorem sysLeft_step {x y : MpiSys σ μ} {p : Nat} (hp : p < size) (ho : ∀ q, q ≠ p → y.proc q = x.proc q)
    (h : procLeft rounds mid p (y.proc p) + 1 = procLeft rounds mid p (x.proc p)) : sysLeft size rounds mid y + 1 = sysLeft size rounds mid x := by
  unfold sysLeft
  have hm : p ∈ Finset.range size := Finset.mem_range.2 hp
  rw [← Finset.add_sum_erase _ _ hm, ← Finset.add_sum_erase _ _ hm, ← h]
  have : ∑ q ∈ (Finset.range size).erase p, procLeft rounds mid q (y.proc q) = ∑ q ∈ (Finset.range size).erase p, procLeft rounds mid q (x.proc q) :=
    Finset.sum_congr rfl fun q hq => by rw [ho q (Finset.ne_of_mem_erase hq)]
  rw [this]
  ring

theorem step_left (h : MpiTrace size rounds st mid) {strict : Bool} {x y : MpiSys σ μ} {rd : Nat → Nat} (hi : MpiInv size rounds st mid x rd)
    (hs : MpiStep size strict x y) : sysLeft size rounds mid y + 1 = sysLeft size rounds mid x := by
  cases hs with
  | begin p R rest s hp ht hb hw =>
    have I := hi.proc p hp
    have ht' := ht
    rw [I.todo] at ht
    obtain ⟨g1, g2, g3⟩ := drop_cons ht
    obtain ⟨M, hM⟩ := h.round _ R g1
    have hmid : s = mid (rd p) p := by
      have := hM.work p hp
      rw [← I.idle hb, hw] at this
      exact Option.some.inj this
    have hP : peersAt rounds mid (rd p) p = R.peers p s := by rw [peersAt_eq g1, hmid]
    refine sysLeft_step hp (fun q hq => by simp [MpiSys.setProc, hq]) ?_
    have hlen : rounds.length - (R :: rest).length = rd p := by
      rw [← ht, List.length_drop]; omega
    simp only [MpiSys.setProc, if_true, procLeft, hb, ht', hlen, Bool.false_eq_true, if_false]
    rw [Finset.sum_eq_sum_Ico_succ_bot g3, roundCost, hP]
    omega
  | send p q R rest l m hp ht hb hs hm =>
    refine sysLeft_step hp (fun q' hq => by simp [MpiSys.setProc, MpiSys.setNet, hq]) ?_
    simp only [MpiSys.setProc, MpiSys.setNet, if_true, procLeft, hb, hs, List.length_cons]
    omega
  | recv p q R rest l m ms s hp ht hb hs hr hn hu =>
    refine sysLeft_step hp (fun q' hq => by simp [MpiSys.setProc, MpiSys.setNet, hq]) ?_
    simp only [MpiSys.setProc, MpiSys.setNet, if_true, procLeft, hb, hr, List.length_cons]
    omega
  | wait p R rest hp ht hb hs hr hw =>
    have I := hi.proc p hp
    have ht' := ht
    rw [I.todo] at ht
    obtain ⟨g1, g2, g3⟩ := drop_cons ht
    refine sysLeft_step hp (fun q hq => by simp [MpiSys.setProc, hq]) ?_
    have hlen : rounds.length - (R :: rest).length = rd p := by
      rw [← ht, List.length_drop]; omega
    have hlen' : rounds.length - rest.length = rd p + 1 := by
      rw [g2, List.length_drop]; omega
    simp only [MpiSys.setProc, if_true, procLeft, hb, ht', hlen, hlen', hs, hr, Bool.false_eq_true, if_false, List.length_nil]
    omega

theorem run_inv (h : MpiTrace size rounds st mid) {strict : Bool} {k : Nat} {x y : MpiSys σ μ} (hr : MpiRun size strict k x y) :
    ∀ rd, MpiInv size rounds st mid x rd → (∃ rd', MpiInv size rounds st mid y rd') ∧ k + sysLeft size rounds mid y = sysLeft size rounds mid x := by
  induction hr with
  | refl x => exact fun rd hi => ⟨⟨rd, hi⟩, by omega⟩
  | step k x y z h1 h2 ih =>
    intro rd hi
    obtain ⟨⟨rd', hi'⟩, e⟩ := ih rd hi
    have := step_left h hi' h2
    exact ⟨step_inv h hi' h2, by omega⟩

/-- When all have finished. -/
theorem inv_finished {x : MpiSys σ μ} {rd : Nat → Nat} (hi : MpiInv size rounds st mid x rd) (hf : x.Finished size) :
    (∀ p < size, (x.proc p).loc = st rounds.length p) ∧ ∀ p q, x.net p q = [] := by
  have hrd : ∀ p < size, rd p = rounds.length ∧ (x.proc p).busy = false := by
    intro p hp
    have I := hi.proc p hp
    have h1 := hf p hp
    rw [I.todo, List.drop_eq_nil_iff] at h1
    have h2 := I.le
    refine ⟨by omega, ?_⟩
    by_contra hc
    have := (I.busy (by simpa using hc)).1
    omega
  refine ⟨fun p hp => ?_, fun p q => ?_⟩
  · rw [← (hrd p hp).1]
    exact (hi.proc p hp).idle (hrd p hp).2
  · by_cases hpq : p < size ∧ q < size
    · have h1 := congrArg List.length (hi.net p hpq.1 q hpq.2)
      unfold sentTo gotFrom at h1
      rw [(hrd p hpq.1).1, (hrd p hpq.1).2, (hrd q hpq.2).1, (hrd q hpq.2).2] at h1
      simp only [Bool.false_eq_true, false_and, if_false, List.append_nil, List.length_append, List.length_map] at h1
      exact List.eq_nil_of_length_eq_zero (by omega)
    · exact hi.out p q hpq

end
end Samurai
