import Verif.Spec.Timers
import Mathlib.Tactic.Linarith
import Mathlib.Tactic.Ring
import Mathlib.Tactic.FieldSimp

namespace Samurai.Timers

def keys (ts : Times) : List String := ts.map Prod.fst

theorem find_nil (n : String) : find [] n = none := rfl

theorem find_cons (p : String × Timer) (ts : Times) (n : String) :
    find (p :: ts) n = if p.1 = n then some p.2 else find ts n := by
  unfold find
  by_cases h : p.1 = n
  · simp [h]
  · simp [h]

theorem find_append (ts : Times) (n m : String) (t : Timer) :
    find (ts ++ [(n, t)]) m =
      match find ts m with
      | some u => some u
      | none => if n = m then some t else none := by
  induction ts with
  | nil => simp [find_cons, find_nil]
  | cons p ts ih =>
    simp only [List.cons_append, find_cons]
    by_cases h : p.1 = m
    · simp [h]
    · simp only [h, if_false]; exact ih

theorem find_set (ts : Times) (n m : String) (t : Timer) :
    find (set ts n t) m = if n = m then (find ts n).map (fun _ => t) else find ts m := by
  induction ts with
  | nil => by_cases h : n = m <;> simp [set, find_nil, h]
  | cons p ts ih =>
    have : set (p :: ts) n t = (if p.1 == n then (n, t) else p) :: set ts n t := rfl
    rw [this, find_cons, ih]
    by_cases h : p.1 = n
    · subst h
      by_cases hm : p.1 = m
      · simp [hm, find_cons]
      · simp [hm, find_cons]
    · by_cases hm : n = m
      · subst hm; simp [h, find_cons]
      · simp [h, hm, find_cons]

theorem keys_set (ts : Times) (n : String) (t : Timer) : keys (set ts n t) = keys ts := by
  unfold keys set
  rw [List.map_map]
  apply List.map_congr_left
  intro p _
  by_cases h : p.1 = n <;> simp [h]

theorem mem_keys (ts : Times) (n : String) : n ∈ keys ts ↔ find ts n ≠ none := by
  induction ts with
  | nil => simp [keys, find_nil]
  | cons p ts ih =>
    rw [find_cons]
    unfold keys at *
    by_cases h : p.1 = n
    · simp [h]
    · simp only [List.map_cons, List.mem_cons, h, if_false, ← ih]
      constructor
      · rintro (h' | h')
        · exact absurd h'.symm h
        · exact h'
      · exact Or.inr

theorem find_start (now : Nat) (n m : String) (ts : Times) :
    find (start now n ts) m =
      if n = m then some (match find ts n with
        | some t => { t with start := now }
        | none => ⟨now, 0, 0⟩) else find ts m := by
  unfold start
  cases h : find ts n with
  | some t =>
    simp only [find_set, h]
    by_cases hm : n = m <;> simp [hm]
  | none =>
    simp only [find_append]
    by_cases hm : n = m
    · subst hm; simp [h]
    · simp only [hm, if_false]; cases find ts m <;> rfl

theorem keys_start (now : Nat) (n : String) (ts : Times) (h : (keys ts).Nodup) :
    (keys (start now n ts)).Nodup := by
  unfold start
  cases hf : find ts n with
  | some t => simp only [keys_set]; exact h
  | none =>
    have : n ∉ keys ts := by rw [mem_keys]; simp [hf]
    simp only [keys, List.map_append, List.map_cons, List.map_nil]
    rw [List.nodup_append]
    refine ⟨h, by simp, ?_⟩
    intro a ha b hb
    simp at hb; subst hb
    intro he; subst he; exact this ha

/-- The timers agree with exact accounts: `A n` nanoseconds in the section `n`, closed `K n`
times, while the sections `r` are open. -/
structure Inv (A K : String → Nat) (r : List String) (s : State) : Prop where
  nodup : (keys s.times).Nodup
  closed : ∀ n, n ∉ r → ∃ e k, (find s.times n = none ∧ e = 0 ∧ k = 0 ∨
      ∃ st, find s.times n = some ⟨st, e, k⟩) ∧
      1000 * e ≤ A n ∧ A n ≤ 1000 * e + 999 * k ∧ K n = k
  opened : ∀ n, n ∈ r → ∃ st e k, find s.times n = some ⟨st, e, k⟩ ∧ st ≤ s.now ∧
      1000 * e + (s.now - st) ≤ A n ∧ A n ≤ 1000 * e + 999 * k + (s.now - st) ∧ K n = k

theorem Inv.congr {A K A' K' : String → Nat} {r r' : List String} {s : State}
    (h : Inv A K r s) (hA : ∀ n, A n = A' n) (hK : ∀ n, K n = K' n)
    (hr : ∀ n, n ∈ r ↔ n ∈ r') : Inv A' K' r' s := by
  obtain rfl : A = A' := funext hA
  obtain rfl : K = K' := funext hK
  exact ⟨h.nodup, fun n hn => h.closed n (by rw [hr]; exact hn),
    fun n hn => h.opened n (by rw [hr]; exact hn)⟩

theorem inv_work {A K : String → Nat} {r : List String} {s : State} (h : Inv A K r s) (d : Nat) :
    Inv (fun n => A n + if n ∈ r then d else 0) K r { s with now := s.now + d } := by
  refine ⟨h.nodup, ?_, ?_⟩
  · intro n hn
    simp only [hn, if_false, Nat.add_zero]
    exact h.closed n hn
  · intro n hn
    obtain ⟨st, e, k, h1, h2, h3, h4, h5⟩ := h.opened n hn
    simp only [hn, if_true]
    exact ⟨st, e, k, h1, by omega, by omega, by omega, h5⟩

theorem inv_start {A K : String → Nat} {r : List String} {s : State} (h : Inv A K r s)
    {n : String} (hn : n ∉ r) : Inv A K (n :: r) { s with times := start s.now n s.times } := by
  refine ⟨keys_start _ _ _ h.nodup, ?_, ?_⟩
  · intro m hm
    simp only [List.mem_cons, not_or] at hm
    simp only [find_start, if_neg (Ne.symm hm.1)]
    exact h.closed m hm.2
  · intro m hm
    simp only [find_start]
    by_cases hnm : n = m
    · subst hnm
      obtain ⟨e, k, h1, h2, h3, h4⟩ := h.closed n hn
      rcases h1 with ⟨hf, rfl, rfl⟩ | ⟨st, hf⟩
      · refine ⟨s.now, 0, 0, by simp [hf], le_refl _, ?_, ?_, h4⟩
        · omega
        · omega
      · refine ⟨s.now, e, k, by simp [hf], le_refl _, ?_, ?_, h4⟩
        · omega
        · omega
    · simp only [hnm, if_false]
      simp only [List.mem_cons] at hm
      exact h.opened m (hm.resolve_left (Ne.symm hnm))

theorem inv_stop {A K : String → Nat} {r : List String} {s : State} (h : Inv A K r s)
    {n : String} (hn : n ∈ r) : ∃ ts, stop s.now n s.times = some ts ∧
      Inv A (fun m => K m + if n = m then 1 else 0) (r.filter (· != n))
        { s with times := ts } := by
  obtain ⟨st, e, k, h1, h2, h3, h4, h5⟩ := h.opened n hn
  refine ⟨set s.times n ⟨st, e + (s.now - st) / 1000, k + 1⟩, by simp [stop, h1], ?_, ?_, ?_⟩
  · simp only [keys_set]; exact h.nodup
  · intro m hm
    simp only [find_set]
    by_cases hnm : n = m
    · subst hnm
      refine ⟨e + (s.now - st) / 1000, k + 1, Or.inr ⟨st, by simp [h1]⟩, ?_, ?_, ?_⟩
      · omega
      · omega
      · simp [h5]
    · simp only [hnm, if_false, Nat.add_zero]
      apply h.closed m
      intro hmr
      apply hm
      simp only [List.mem_filter]
      exact ⟨hmr, by simpa using Ne.symm hnm⟩
  · intro m hm
    simp only [List.mem_filter, bne_iff_ne] at hm
    have hnm : n ≠ m := Ne.symm hm.2
    simp only [find_set, if_neg hnm, Nat.add_zero]
    exact h.opened m hm.1

theorem exec_inv (p : Prog) : ∀ {r : List String} {A K : String → Nat} {s : State},
    Bracketed r p → Inv A K r s → ∃ s', exec p s = some s' ∧ s'.now = s.now + duration p ∧
      Inv (fun n => A n + spent n (decide (n ∈ r)) p) (fun n => K n + closings n p) r s' := by
  induction p with
  | skip =>
    intro r A K s _ h
    exact ⟨s, rfl, rfl, h.congr (fun _ => rfl) (fun _ => rfl) (fun _ => Iff.rfl)⟩
  | work d =>
    intro r A K s _ h
    refine ⟨_, rfl, rfl, (inv_work h d).congr (fun n => ?_) (fun _ => rfl) (fun _ => Iff.rfl)⟩
    simp [spent]
  | seq p q ihp ihq =>
    intro r A K s hb h
    obtain ⟨s1, e1, t1, i1⟩ := ihp hb.1 h
    obtain ⟨s2, e2, t2, i2⟩ := ihq hb.2 i1
    refine ⟨s2, by simp [exec, e1, e2], by rw [t2, t1]; simp [duration]; omega,
      i2.congr (fun n => ?_) (fun n => ?_) (fun _ => Iff.rfl)⟩
    · simp [spent, Nat.add_assoc]
    · simp [closings, Nat.add_assoc]
  | timed n p ih =>
    intro r A K s hb h
    obtain ⟨s1, e1, t1, i1⟩ := ih hb.2 (inv_start h hb.1)
    obtain ⟨ts, e2, i2⟩ := inv_stop i1 (List.mem_cons_self (a := n))
    refine ⟨{ s1 with times := ts }, by simp [exec, e1, e2], t1,
      i2.congr (fun m => ?_) (fun m => ?_) (fun m => ?_)⟩
    · simp only [spent, List.mem_cons]
      congr 2
      by_cases hm : m = n
      · subst hm; simp
      · simp [hm, Ne.symm hm]
    · simp [closings, Nat.add_assoc]
    · simp only [List.mem_filter, List.mem_cons, bne_iff_ne]
      constructor
      · rintro ⟨h1 | h1, h2⟩
        · exact absurd h1 h2
        · exact h1
      · intro hm
        exact ⟨Or.inr hm, fun he => hb.1 (he ▸ hm)⟩
  | paused n p ih =>
    intro r A K s hb h
    obtain ⟨ts, e1, i1⟩ := inv_stop h hb.1
    obtain ⟨s1, e2, t2, i2⟩ := ih hb.2 i1
    have hni : n ∉ r.filter (· != n) := by simp
    have i3 := inv_start i2 hni
    refine ⟨{ s1 with times := start s1.now n s1.times }, by simp [exec, e1, e2], t2,
      i3.congr (fun m => ?_) (fun m => ?_) (fun m => ?_)⟩
    · simp only [spent, List.mem_filter]
      congr 2
      by_cases hm : m = n
      · subst hm; simp
      · simp [hm, Ne.symm hm]
    · simp only [closings]; omega
    · simp only [List.mem_cons, List.mem_filter, bne_iff_ne]
      constructor
      · rintro (h1 | h1)
        · rw [h1]; exact hb.1
        · exact h1.1
      · intro hm
        by_cases he : m = n
        · exact Or.inl he
        · exact Or.inr ⟨hm, he⟩

theorem inv_empty (t : Nat) : Inv (fun _ => 0) (fun _ => 0) [] ⟨t, []⟩ :=
  ⟨List.nodup_nil, fun n _ => ⟨0, 0, Or.inl ⟨rfl, rfl, rfl⟩, by omega, by omega, rfl⟩,
    fun n hn => absurd hn (List.not_mem_nil)⟩

theorem inv_elapsed {A K : String → Nat} {s : State} (h : Inv A K [] s) (n : String) :
    1000 * getElapsedTime s.times n ≤ A n ∧
    A n ≤ 1000 * getElapsedTime s.times n + 999 * getStops s.times n ∧
    getStops s.times n = K n := by
  obtain ⟨e, k, h1, h2, h3, h4⟩ := h.closed n List.not_mem_nil
  unfold getElapsedTime getStops
  rcases h1 with ⟨hf, rfl, rfl⟩ | ⟨st, hf⟩
  · rw [hf]; exact ⟨h2, h3, h4.symm⟩
  · rw [hf]; exact ⟨h2, h3, h4.symm⟩

/-! ## Sections that are never nested -/

theorem oneAtATime_bracketed (p : Prog) : ∀ {o : Option String} {r : List String},
    OneAtATime o p → (∀ n, n ∈ r ↔ n = "total runtime" ∨ o = some n) → 
    o ≠ some "total runtime" → Bracketed r p := by
  induction p with
  | skip => intros; trivial
  | work d => intros; trivial
  | seq p q ihp ihq => intro o r h hr ho; exact ⟨ihp h.1 hr ho, ihq h.2 hr ho⟩
  | timed n p ih =>
    intro o r h hr ho
    obtain ⟨rfl, hn, hp⟩ := h
    refine ⟨by rw [hr]; simp [hn], ih hp (fun m => ?_) (by simpa using hn)⟩
    simp only [List.mem_cons, hr, Option.some.injEq, reduceCtorEq, or_false]
    rw [or_comm, eq_comm (a := m) (b := n)]
  | paused n p ih =>
    intro o r h hr ho
    obtain ⟨rfl, hp⟩ := h
    refine ⟨by rw [hr]; simp, ih hp (fun m => ?_) (by simp)⟩
    have hn : n ≠ "total runtime" := by simpa using ho
    simp only [List.mem_filter, hr, Option.some.injEq, reduceCtorEq, or_false, bne_iff_ne]
    constructor
    · rintro ⟨h1 | h1, h2⟩
      · exact h1
      · exact absurd h1.symm h2
    · intro h1
      exact ⟨Or.inl h1, by rw [h1]; exact Ne.symm hn⟩

theorem sum_map_add' (L : List String) (f g : String → Nat) :
    (L.map (fun n => f n + g n)).sum = (L.map f).sum + (L.map g).sum := by
  induction L with
  | nil => rfl
  | cons a L ih => simp only [List.map_cons, List.sum_cons, ih]; omega

theorem sum_ite_le (L : List String) (hL : L.Nodup) (o : Option String) (d : Nat) :
    (L.map (fun n => if o = some n then d else 0)).sum ≤ d := by
  induction L with
  | nil => simp
  | cons a L ih =>
    rw [List.nodup_cons] at hL
    simp only [List.map_cons, List.sum_cons]
    by_cases h : o = some a
    · subst h
      have : (L.map (fun n => if some a = some n then d else 0)).sum = 0 := by
        have hz : L.map (fun n => if some a = some n then d else 0) = L.map (fun _ => 0) := by
          apply List.map_congr_left
          intro m hm
          have : a ≠ m := fun he => hL.1 (he ▸ hm)
          simp [this]
        rw [hz]; simp
      rw [this]; simp
    · simp only [h, if_false, Nat.zero_add]; exact ih hL.2

/-- The times of sections that are never open together add up to at most the duration. -/
theorem sum_spent_le (p : Prog) : ∀ {o : Option String}, OneAtATime o p → ∀ (L : List String),
    L.Nodup → (L.map (fun n => spent n (decide (o = some n)) p)).sum ≤ duration p := by
  induction p with
  | skip => intro o _ L _; simp [spent]
  | work d =>
    intro o _ L hL
    have := sum_ite_le L hL o d
    simpa [spent, duration] using this
  | seq p q ihp ihq =>
    intro o h L hL
    simp only [spent, duration, sum_map_add']
    exact Nat.add_le_add (ihp h.1 L hL) (ihq h.2 L hL)
  | timed n p ih =>
    intro o h L hL
    obtain ⟨rfl, _, hp⟩ := h
    have := ih hp L hL
    simp only [duration]
    refine le_of_eq_of_le ?_ this
    congr 1
    apply List.map_congr_left
    intro m _
    simp only [spent]
    congr 1
    by_cases hm : n = m <;> simp [hm]
  | paused n p ih =>
    intro o h L hL
    obtain ⟨rfl, hp⟩ := h
    have := ih hp L hL
    simp only [duration]
    refine le_of_eq_of_le ?_ this
    congr 1
    apply List.map_congr_left
    intro m _
    simp only [spent]
    congr 1
    by_cases hm : n = m <;> simp [hm]

theorem spent_true_of_not_paused (p : Prog) : ∀ {o : Option String}, OneAtATime o p →
    o ≠ some "total runtime" → spent "total runtime" true p = duration p := by
  induction p with
  | skip => intros; rfl
  | work d => intros; rfl
  | seq p q ihp ihq => intro o h ho; simp [spent, duration, ihp h.1 ho, ihq h.2 ho]
  | timed n p ih =>
    intro o h ho
    simp only [spent, duration, Bool.true_or]
    exact ih h.2.2 (by simpa using h.2.1)
  | paused n p ih =>
    intro o h ho
    obtain ⟨rfl, hp⟩ := h
    have hn : n ≠ "total runtime" := by simpa using ho
    have : (n != "total runtime") = true := by simpa using hn
    simp only [spent, duration, this, Bool.true_and]
    exact ih hp (by simp)

theorem closings_total (p : Prog) : ∀ {o : Option String}, OneAtATime o p →
    o ≠ some "total runtime" → closings "total runtime" p = 0 := by
  induction p with
  | skip => intros; rfl
  | work d => intros; rfl
  | seq p q ihp ihq => intro o h ho; simp [closings, ihp h.1 ho, ihq h.2 ho]
  | timed n p ih =>
    intro o h ho
    simp only [closings, if_neg h.2.1]
    exact ih h.2.2 (by simpa using h.2.1)
  | paused n p ih =>
    intro o h ho
    obtain ⟨rfl, hp⟩ := h
    have hn : n ≠ "total runtime" := by simpa using ho
    simp only [closings, if_neg hn]
    exact ih hp (by simp)

theorem find_of_mem {ts : Times} (h : (keys ts).Nodup) {p : String × Timer} (hp : p ∈ ts) :
    find ts p.1 = some p.2 := by
  induction ts with
  | nil => exact absurd hp List.not_mem_nil
  | cons q ts ih =>
    rw [keys, List.map_cons, List.nodup_cons] at h
    rw [find_cons]
    rcases List.mem_cons.1 hp with rfl | hp'
    · simp
    · have : q.1 ≠ p.1 := fun he => h.1 (he ▸ List.mem_map_of_mem hp')
      simp only [this, if_false]
      exact ih h.2 hp'

theorem totalMeasured_eq {ts : Times} (h : (keys ts).Nodup) :
    totalMeasured ts =
      (((keys ts).filter (· != "total runtime")).map (getElapsedTime ts)).sum := by
  unfold totalMeasured keys
  rw [List.filter_map, List.map_map]
  congr 1
  apply List.map_congr_left
  intro p hp
  have := find_of_mem h (List.mem_filter.1 hp).1
  simp [getElapsedTime, this]

/-! ## The statistics over the processes -/

theorem minLoop_spec (l : List Rat) : ∀ (i : Nat) (a : Rat × Int),
    (minLoop l i a).1 ≤ a.1 ∧ (∀ x ∈ l, (minLoop l i a).1 ≤ x) ∧
    ((minLoop l i a) = a ∨ ∃ j : Nat, ∃ h : j < l.length,
      minLoop l i a = (l[j], ((i + j : Nat) : Int))) := by
  induction l with
  | nil => intro i a; exact ⟨le_refl _, by simp, Or.inl rfl⟩
  | cons x l ih =>
    intro i a
    simp only [minLoop]
    by_cases h : x < a.1
    · simp only [h, if_true]
      obtain ⟨h1, h2, h3⟩ := ih (i + 1) (x, (i : Int))
      refine ⟨le_trans h1 (le_of_lt h), ?_, ?_⟩
      · intro y hy
        rcases List.mem_cons.1 hy with rfl | hy
        · exact h1
        · exact h2 y hy
      · right
        rcases h3 with h3 | ⟨j, hj, h3⟩
        · exact ⟨0, by simp, by rw [h3]; simp⟩
        · refine ⟨j + 1, by simp; omega, ?_⟩
          rw [h3]
          simp only [List.getElem_cons_succ, Prod.mk.injEq, true_and]
          congr 1; omega
    · simp only [h, if_false]
      obtain ⟨h1, h2, h3⟩ := ih (i + 1) a
      refine ⟨h1, ?_, ?_⟩
      · intro y hy
        rcases List.mem_cons.1 hy with rfl | hy
        · exact le_trans h1 (not_lt.1 h)
        · exact h2 y hy
      · rcases h3 with h3 | ⟨j, hj, h3⟩
        · exact Or.inl h3
        · right
          refine ⟨j + 1, by simp; omega, ?_⟩
          rw [h3]
          simp only [List.getElem_cons_succ, Prod.mk.injEq, true_and]
          congr 1; omega

theorem maxLoop_spec (l : List Rat) : ∀ (i : Nat) (a : Rat × Int),
    a.1 ≤ (maxLoop l i a).1 ∧ (∀ x ∈ l, x ≤ (maxLoop l i a).1) ∧
    ((maxLoop l i a) = a ∨ ∃ j : Nat, ∃ h : j < l.length,
      maxLoop l i a = (l[j], ((i + j : Nat) : Int))) := by
  induction l with
  | nil => intro i a; exact ⟨le_refl _, by simp, Or.inl rfl⟩
  | cons x l ih =>
    intro i a
    simp only [maxLoop]
    by_cases h : x > a.1
    · simp only [h, if_true]
      obtain ⟨h1, h2, h3⟩ := ih (i + 1) (x, (i : Int))
      refine ⟨le_trans (le_of_lt h) h1, ?_, ?_⟩
      · intro y hy
        rcases List.mem_cons.1 hy with rfl | hy
        · exact h1
        · exact h2 y hy
      · right
        rcases h3 with h3 | ⟨j, hj, h3⟩
        · exact ⟨0, by simp, by rw [h3]; simp⟩
        · refine ⟨j + 1, by simp; omega, ?_⟩
          rw [h3]
          simp only [List.getElem_cons_succ, Prod.mk.injEq, true_and]
          congr 1; omega
    · simp only [h, if_false]
      obtain ⟨h1, h2, h3⟩ := ih (i + 1) a
      refine ⟨h1, ?_, ?_⟩
      · intro y hy
        rcases List.mem_cons.1 hy with rfl | hy
        · exact le_trans (not_lt.1 h) h1
        · exact h2 y hy
      · rcases h3 with h3 | ⟨j, hj, h3⟩
        · exact Or.inl h3
        · right
          refine ⟨j + 1, by simp; omega, ?_⟩
          rw [h3]
          simp only [List.getElem_cons_succ, Prod.mk.injEq, true_and]
          congr 1; omega

theorem foldl_own (own : Rat) (l : List Rat) : ∀ a : Rat,
    l.foldl (fun a _ => a + own) a = a + l.length * own := by
  induction l with
  | nil => intro a; simp
  | cons x l ih => intro a; rw [List.foldl_cons, ih]; push_cast [List.length_cons]; ring

end Samurai.Timers
