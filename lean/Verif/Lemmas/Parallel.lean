import Verif.Model.Flux
import Mathlib.Algebra.BigOperators.Group.List.Basic
import Mathlib.Tactic.Abel

namespace Samurai

section
variable {V : Type} [AddCommGroup V]

/-- What a list of updates adds to the cell `i`. -/
def updSum (us : List (Upd V)) (i : Int) : V := (us.map fun u => if i = u.1 then u.2 else 0).sum

theorem updSum_nil (i : Int) : updSum ([] : List (Upd V)) i = 0 := rfl

theorem updSum_cons (u : Upd V) (us : List (Upd V)) (i : Int) : updSum (u :: us) i = (if i = u.1 then u.2 else 0) + updSum us i := by
  unfold updSum
  rw [List.map_cons, List.sum_cons]

theorem updSum_append (a b : List (Upd V)) (i : Int) : updSum (a ++ b) i = updSum a i + updSum b i := by
  unfold updSum
  rw [List.map_append, List.sum_append]

theorem addTo_apply (out : Int → V) (u : Upd V) (i : Int) : addTo out u i = out i + if i = u.1 then u.2 else 0 := by
  unfold addTo
  by_cases h : i = u.1
  · rw [if_pos h, if_pos h]
  · rw [if_neg h, if_neg h, add_zero]

theorem foldl_addTo (us : List (Upd V)) : ∀ (out : Int → V) (i : Int), us.foldl addTo out i = out i + updSum us i := by
  induction us with
  | nil => intro out i; rw [updSum_nil, add_zero]; rfl
  | cons u us ih => intro out i; rw [List.foldl_cons, ih, addTo_apply, updSum_cons, add_assoc]

/-- The updates that remain. -/
def PState.rest (s : PState V) : List (Upd V) := s.tasks.flatMap Task.rest

theorem rest_mid (mem : Int → V) (a b : List (Task V)) (t : Task V) (i : Int) :
    updSum (PState.rest ⟨mem, a ++ t :: b⟩) i = updSum (a.flatMap Task.rest) i + (updSum t.rest i + updSum (b.flatMap Task.rest) i) := by
  unfold PState.rest
  rw [List.flatMap_append, List.flatMap_cons, updSum_append, updSum_append]

theorem prun_atomic {s : PState V} {m : Int → V} (h : PRun true s m) (hn : ∀ t ∈ s.tasks, t.loaded = none) (i : Int) :
    m i = s.mem i + updSum s.rest i := by
  induction h with
  | done s hd =>
    have : s.rest = [] := by
      unfold PState.rest
      rw [List.flatMap_eq_nil_iff]
      exact fun t ht => (hd t ht).2
    rw [this, updSum_nil, add_zero]
  | step s s' m h hr ih =>
    cases h with
    | update mem a b u us h =>
      rw [ih (by
        intro t ht
        simp only [List.mem_append, List.mem_cons] at ht
        rcases ht with ht | rfl | ht
        · exact hn t (by simp [ht])
        · rfl
        · exact hn t (by simp [ht])), rest_mid, rest_mid]
      show addTo mem u i + _ = mem i + _
      rw [addTo_apply, updSum_cons]
      abel
    | load => contradiction
    | store => contradiction

/-- Two lists of updates have no address in common. -/
def Apart (a b : List (Upd V)) : Prop := ∀ u ∈ a, ∀ w ∈ b, u.1 ≠ w.1

/-- The value loaded by each task is still the one in memory, and two tasks have no address in common. -/
structure NoRace (s : PState V) : Prop where
  loaded : ∀ t ∈ s.tasks, ∀ v, t.loaded = some v → ∃ u us, t.rest = u :: us ∧ v = s.mem u.1
  apart : s.tasks.Pairwise fun t t' => Apart t.rest t'.rest

/-- Different addresses in all tasks. -/
theorem apart_of_nodup (ts : List (List (Upd V))) (h : (ts.flatten.map Prod.fst).Nodup) : ts.Pairwise Apart := by
  induction ts with
  | nil => exact List.Pairwise.nil
  | cons t ts ih =>
    rw [List.flatten_cons, List.map_append, List.nodup_append] at h
    refine List.Pairwise.cons (fun t' ht' u hu w hw => ?_) (ih h.2.1)
    exact h.2.2 u.1 (List.mem_map.2 ⟨u, hu, rfl⟩) w.1 (List.mem_map.2 ⟨w, List.mem_flatten.2 ⟨t', ht', hw⟩, rfl⟩)

theorem prun_plain {s : PState V} {m : Int → V} (h : PRun false s m) (hn : NoRace s) (i : Int) : m i = s.mem i + updSum s.rest i := by
  induction h with
  | done s hd =>
    have : s.rest = [] := by
      unfold PState.rest
      rw [List.flatMap_eq_nil_iff]
      exact fun t ht => (hd t ht).2
    rw [this, updSum_nil, add_zero]
  | step s s' m h hr ih =>
    cases h with
    | update mem a b u us h => contradiction
    | load mem a b u us h =>
      rw [ih ⟨?_, ?_⟩, rest_mid, rest_mid]
      · intro t ht v hv
        simp only [List.mem_append, List.mem_cons] at ht
        rcases ht with ht | rfl | ht
        · exact hn.loaded t (by simp [ht]) v hv
        · cases hv
          exact ⟨u, us, rfl, rfl⟩
        · exact hn.loaded t (by simp [ht]) v hv
      · have := hn.apart
        rw [List.pairwise_append, List.pairwise_cons] at this ⊢
        refine ⟨this.1, this.2.1, fun t ht t' ht' => ?_⟩
        rcases List.mem_cons.1 ht' with rfl | ht'
        · exact this.2.2 t ht ⟨none, u :: us⟩ List.mem_cons_self
        · exact this.2.2 t ht t' (List.mem_cons_of_mem _ ht')
    | store mem a b u us v h =>
      obtain ⟨u', us', e1, e2⟩ := hn.loaded ⟨some v, u :: us⟩ (by simp) v rfl
      have hnd := hn.apart
      rw [List.pairwise_append, List.pairwise_cons] at hnd
      have hu : ∀ t, t ∈ a ∨ t ∈ b → ∀ w ∈ t.rest, w.1 ≠ u.1 := by
        intro t ht w hw he
        rcases ht with ht | ht
        · exact hnd.2.2 t ht ⟨some v, u :: us⟩ List.mem_cons_self w hw u List.mem_cons_self he
        · exact hnd.2.1.1 t ht u List.mem_cons_self w hw he.symm
      injection e1 with e1 e3
      subst e1
      have hmem : (fun j => if j = u.1 then v + u.2 else mem j) = addTo mem u := by
        funext j
        unfold addTo
        by_cases hj : j = u.1
        · rw [if_pos hj, if_pos hj, e2, hj]
        · rw [if_neg hj, if_neg hj]
      rw [ih ⟨?_, ?_⟩, rest_mid, rest_mid]
      · show (fun j => if j = u.1 then v + u.2 else mem j) i + _ = mem i + _
        rw [hmem, addTo_apply, updSum_cons]
        abel
      · intro t ht w hw
        simp only [List.mem_append, List.mem_cons] at ht
        have key : t ∈ a ∨ t ∈ b → ∃ u_1 us, t.rest = u_1 :: us ∧ w = (if u_1.1 = u.1 then v + u.2 else mem u_1.1) := by
          intro ht'
          obtain ⟨x, xs, x1, x2⟩ := hn.loaded t (by rcases ht' with h | h <;> simp [h]) w hw
          refine ⟨x, xs, x1, ?_⟩
          rw [if_neg (hu t ht' x (by rw [x1]; exact List.mem_cons_self))]
          exact x2
        rcases ht with ht | rfl | ht
        · exact key (Or.inl ht)
        · cases hw
        · exact key (Or.inr ht)
      · rw [List.pairwise_append, List.pairwise_cons]
        refine ⟨hnd.1, ⟨fun t ht x hx w hw => hnd.2.1.1 t ht x (List.mem_cons_of_mem _ hx) w hw, hnd.2.1.2⟩, fun t ht t' ht' => ?_⟩
        rcases List.mem_cons.1 ht' with rfl | ht'
        · exact fun x hx w hw => hnd.2.2 t ht ⟨some v, u :: us⟩ List.mem_cons_self x hx w (List.mem_cons_of_mem _ hw)
        · exact hnd.2.2 t ht t' (List.mem_cons_of_mem _ ht')

/-- A region whose tasks, when they are unprotected, have no address in common: every parallel execution gives the sequential result. -/
theorem region_run {r : Region V} {m m' : Int → V} (hr : r.atomic = false → r.tasks.Pairwise Apart)
    (h : PRun r.atomic ⟨m, r.tasks.map fun t => ⟨none, t⟩⟩ m') : m' = r.run m := by
  have hrest : PState.rest (⟨m, r.tasks.map fun t => ⟨none, t⟩⟩ : PState V) = r.tasks.flatten := by
    unfold PState.rest
    rw [List.flatMap_map, List.flatMap_id']
  have hl : ∀ t ∈ r.tasks.map (fun t => (⟨none, t⟩ : Task V)), t.loaded = none := by
    intro t ht
    obtain ⟨_, _, rfl⟩ := List.mem_map.1 ht
    rfl
  funext i
  unfold Region.run
  rw [foldl_addTo]
  cases ha : r.atomic with
  | true =>
    rw [ha] at h
    rw [prun_atomic h hl i, hrest]
  | false =>
    rw [ha] at h
    rw [prun_plain h ⟨fun t ht v hv => absurd ((hl t ht).symm.trans hv) (by simp), by rw [List.pairwise_map]; exact hr ha⟩ i, hrest]

theorem par_run {rs : List (Region V)} {m m' : Int → V} (h : ParRun rs m m')
    (hr : ∀ r ∈ rs, r.atomic = false → r.tasks.Pairwise Apart) : m' = rs.foldl Region.run m := by
  induction h with
  | nil m => rfl
  | cons r rs m m' m'' h _ ih =>
    rw [ih fun r' h' => hr r' (List.mem_cons_of_mem _ h'), List.foldl_cons, region_run (hr r List.mem_cons_self) h]

/-- One task after the other is an execution. -/
theorem prun_exists (atomic : Bool) (ts : List (List (Upd V))) : ∀ (a : List (Task V)) (m : Int → V), (∀ t ∈ a, t.loaded = none ∧ t.rest = []) →
    PRun atomic ⟨m, a ++ ts.map fun t => ⟨none, t⟩⟩ (ts.flatten.foldl addTo m) := by
  induction ts with
  | nil => exact fun a m h => .done _ fun t ht => h t (by simpa using ht)
  | cons us ts ih =>
    intro a m h
    induction us generalizing m with
    | nil =>
      have := ih (a ++ [⟨none, []⟩]) m fun t ht => by
        rcases List.mem_append.1 ht with ht | ht
        · exact h t ht
        · rw [List.mem_singleton.1 ht]; exact ⟨rfl, rfl⟩
      rw [List.append_assoc] at this
      exact this
    | cons u us ihu =>
      have hu := ihu (addTo m u)
      cases atomic with
      | true => exact .step _ _ _ (.update m a _ u us rfl) hu
      | false =>
        refine .step _ _ _ (.load m a _ u us rfl) (.step _ _ _ (.store m a _ u us (m u.1) rfl) ?_)
        have : (fun i => if i = u.1 then m u.1 + u.2 else m i) = addTo m u := by
          funext i
          unfold addTo
          by_cases hi : i = u.1
          · rw [if_pos hi, if_pos hi, hi]
          · rw [if_neg hi, if_neg hi]
        rw [this]
        exact hu

theorem par_exists (rs : List (Region V)) : ∀ m : Int → V, ParRun rs m (rs.foldl Region.run m) := by
  induction rs with
  | nil => exact fun m => .nil m
  | cons r rs ih => exact fun m => .cons r rs m _ _ (prun_exists r.atomic r.tasks [] m (by simp)) (ih _)

end

end Samurai
