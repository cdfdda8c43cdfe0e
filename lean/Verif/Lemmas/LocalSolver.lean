/- Lemmas about the solvers of the local equations. -/
import Verif.Spec.LocalSolver
import Mathlib.Analysis.Calculus.Deriv.Add
import Mathlib.Analysis.Calculus.Deriv.Mul
import Mathlib.Algebra.BigOperators.Fin
import Mathlib.Tactic.Ring
import Mathlib.Tactic.Linarith

namespace Samurai

section
variable {K κ S : Type} {n : Nat}

theorem fieldPos_inj {soa : Bool} {N idx idx' : Nat} {i j : Fin n} (h : idx < N) (h' : idx' < N) (e : fieldPos soa N idx i = fieldPos soa N idx' j) : idx = idx' ∧ i = j := by
  unfold fieldPos at e
  cases soa
  · simp only [Bool.false_eq_true, if_false] at e
    have hi := i.2
    have hj := j.2
    have : idx = idx' := by
      have h1 : (idx * n + i.1) / n = idx := by rw [Nat.mul_comm, Nat.mul_add_div (by omega), Nat.div_eq_of_lt hi]; omega
      have h2 : (idx' * n + j.1) / n = idx' := by rw [Nat.mul_comm, Nat.mul_add_div (by omega), Nat.div_eq_of_lt hj]; omega
      rw [← h1, ← h2, e]
    subst this
    exact ⟨rfl, Fin.ext (by omega)⟩
  · simp only [if_true] at e
    have : i.1 = j.1 := by
      have h1 : (i.1 * N + idx) / N = i.1 := by rw [Nat.mul_comm, Nat.mul_add_div (by omega), Nat.div_eq_of_lt h]; omega
      have h2 : (j.1 * N + idx') / N = j.1 := by rw [Nat.mul_comm, Nat.mul_add_div (by omega), Nat.div_eq_of_lt h']; omega
      rw [← h1, ← h2, e]
    rw [this] at e
    exact ⟨by omega, Fin.ext this⟩

theorem foldl_update_other {ι : Type} (l : List ι) (pos : ι → Nat) (x : ι → K) (p : Nat) (hp : ∀ i ∈ l, pos i ≠ p) (a : Nat → K) :
    l.foldl (fun a i => Function.update a (pos i) (x i)) a p = a p := by
  induction l generalizing a with
  | nil => rfl
  | cons i l ih =>
    rw [List.foldl_cons, ih (fun j hj => hp j (List.mem_cons_of_mem _ hj)), Function.update_of_ne (fun e => hp i (List.mem_cons_self ..) e.symm)]

theorem foldl_update_at {ι : Type} (l : List ι) (pos : ι → Nat) (x : ι → K) (hinj : ∀ i ∈ l, ∀ j ∈ l, pos i = pos j → i = j) (i : ι) (hi : i ∈ l) (a : Nat → K) :
    l.foldl (fun a i => Function.update a (pos i) (x i)) a (pos i) = x i := by
  induction l generalizing a with
  | nil => exact absurd hi (by simp)
  | cons k l ih =>
    rw [List.foldl_cons]
    by_cases h : i ∈ l
    · exact ih (fun i hi j hj => hinj i (List.mem_cons_of_mem _ hi) j (List.mem_cons_of_mem _ hj)) h _
    · have hik : i = k := (List.mem_cons.1 hi).resolve_right h
      subst hik
      rw [foldl_update_other l pos x (pos i) (fun j hj e => h (hinj j (List.mem_cons_of_mem _ hj) i hi e ▸ hj)), Function.update_self]

theorem writeArray_at (soa : Bool) {N idx : Nat} (h : idx < N) (a : Nat → K) (x : Fin n → K) (i : Fin n) : writeArray soa N a idx x (fieldPos soa N idx i) = x i :=
  foldl_update_at _ (fieldPos soa N idx) x (fun _ _ _ _ e => (fieldPos_inj h h e).2) i (List.mem_finRange i) a

theorem writeArray_other (soa : Bool) {N idx : Nat} (a : Nat → K) (x : Fin n → K) (p : Nat) (hp : ∀ i : Fin n, fieldPos soa N idx i ≠ p) : writeArray soa N a idx x p = a p :=
  foldl_update_other _ (fieldPos soa N idx) x p (fun i _ => hp i) a

theorem readLocal_write (soa : Bool) {N idx : Nat} (h : idx < N) (m : FieldMem K) (u : Nat) (x : Fin n → K) : readLocal soa N (writeLocal soa N m u idx x) u idx = x := by
  funext i
  show Function.update m u _ u _ = x i
  rw [Function.update_self]
  exact writeArray_at soa h _ x i

theorem readLocal_write_field (soa : Bool) {N idx idx' : Nat} (m : FieldMem K) (u f : Nat) (hf : f ≠ u) (x : Fin n → K) :
    readLocal (n := n) soa N (writeLocal soa N m u idx x) f idx' = readLocal soa N m f idx' := by
  funext i
  show Function.update m u _ f _ = _
  rw [Function.update_of_ne hf]
  rfl

theorem readLocal_write_cell (soa : Bool) {N idx idx' : Nat} (h : idx < N) (h' : idx' < N) (hne : idx' ≠ idx) (m : FieldMem K) (u f : Nat) (x : Fin n → K) :
    readLocal (n := n) soa N (writeLocal soa N m u idx x) f idx' = readLocal soa N m f idx' := by
  by_cases hf : f = u
  · subst hf
    funext i
    show Function.update m f _ f _ = _
    rw [Function.update_self]
    exact writeArray_other soa _ x _ fun j e => hne (fieldPos_inj h h' e).1.symm
  · exact readLocal_write_field soa m u f hf x

theorem writeLocal_write (soa : Bool) {N idx : Nat} (h : idx < N) (m : FieldMem K) (u : Nat) (x y : Fin n → K) : writeLocal soa N (writeLocal soa N m u idx x) u idx y = writeLocal soa N m u idx y := by
  unfold writeLocal
  rw [Function.update_idem, Function.update_self]
  congr 1
  funext p
  by_cases hp : ∃ i : Fin n, fieldPos soa N idx i = p
  · obtain ⟨i, rfl⟩ := hp
    rw [writeArray_at soa h, writeArray_at soa h]
  · rw [not_exists] at hp
    rw [writeArray_other soa _ _ p hp, writeArray_other soa _ _ p hp, writeArray_other soa _ _ p hp]

theorem writeLocal_read (soa : Bool) {N idx : Nat} (h : idx < N) (m : FieldMem K) (u : Nat) : writeLocal soa N m u idx (readLocal (n := n) soa N m u idx) = m := by
  unfold writeLocal
  funext f
  by_cases hf : f = u
  · subst hf
    rw [Function.update_self]
    funext p
    by_cases hp : ∃ i : Fin n, fieldPos soa N idx i = p
    · obtain ⟨i, rfl⟩ := hp
      rw [writeArray_at soa h]; rfl
    · rw [not_exists] at hp
      rw [writeArray_other soa _ _ p hp]
  · rw [Function.update_of_ne hf]

variable [Sub K]

/-- The solve of a cell on vectors of its own. -/
def localNewton (nm : NewtonMethod K S n) (F : (Fin n → K) → Fin n → K) (J : (Fin n → K) → Matrix (Fin n) (Fin n) K) (b : Fin n → K) (s : S) (x : Fin n → K) : Option (S × (Fin n → K)) :=
  snesSolve (M := Fin n → K) nm (fun x => x) (fun _ x => x) (fun _ => b) F J s x

/-- The iterations in a memory where `b` does not change. -/
theorem newtonLoop_mem (nm : NewtonMethod K S n) (F : (Fin n → K) → Fin n → K) (J : (Fin n → K) → Matrix (Fin n) (Fin n) K) (soa : Bool) {N u b idx : Nat} (h : idx < N) (hub : b ≠ u) (r0 : Fin n → K)
    (k : Nat) : ∀ (s : S) (r : Fin n → K) (m : FieldMem K),
    newtonLoop nm (fun m => readLocal soa N m u idx) (fun m x => writeLocal soa N m u idx x) (fun m => readLocal soa N m b idx) F J r0 k s r m =
      (newtonLoop (M := Fin n → K) nm (fun x => x) (fun _ x => x) (fun _ => readLocal soa N m b idx) F J r0 k s r (readLocal soa N m u idx)).map (fun q => (q.1, writeLocal soa N m u idx q.2)) := by
  induction k with
  | zero =>
    intro s r m
    unfold newtonLoop
    split
    · simp [writeLocal_read soa h]
    · rfl
  | succ k ih =>
    intro s r m
    unfold newtonLoop
    split
    · simp [writeLocal_read soa h]
    · simp only []
      rw [ih, readLocal_write soa h, readLocal_write_field soa m u b hub]
      congr 1
      funext q
      rw [writeLocal_write soa h]

/-- The body of the loop. -/
theorem solveCell_eq (nm : NewtonMethod K S n) (F : (Fin n → K) → Fin n → K) (J : (Fin n → K) → Matrix (Fin n) (Fin n) K) (soa : Bool) {N u b idx : Nat} (h : idx < N) (hub : b ≠ u ∨ (1 < n ∧ soa = true)) (s : S)
    (m : FieldMem K) :
    solveCell nm F J soa N u b idx s m = (localNewton nm F J (readLocal soa N m b idx) s (readLocal soa N m u idx)).map (fun q => (q.1, writeLocal soa N m u idx q.2)) := by
  unfold solveCell
  split
  · rw [localNewton]
    match snesSolve (M := Fin n → K) nm (fun x => x) (fun _ x => x) (fun _ => readLocal soa N m b idx) F J s (readLocal soa N m u idx) with
    | none => rfl
    | some (s', x) => rfl
  · rename_i hc
    unfold snesSolve
    rw [newtonLoop_mem nm F J soa h (hub.resolve_right hc)]
    rfl

/-- At the end the test of convergence holds of the value of the function. -/
theorem newtonLoop_converged (nm : NewtonMethod K S n) (F : (Fin n → K) → Fin n → K) (J : (Fin n → K) → Matrix (Fin n) (Fin n) K) (b r0 : Fin n → K) (k : Nat) :
    ∀ (s : S) (x : Fin n → K) (q : S × (Fin n → K)), newtonLoop (M := Fin n → K) nm (fun x => x) (fun _ x => x) (fun _ => b) F J r0 k s (F x - b) x = some q → nm.converged r0 (F q.2 - b) = true := by
  induction k with
  | zero =>
    intro s x q h
    unfold newtonLoop at h
    split at h
    · rename_i hc; cases h; exact hc
    · exact absurd h (by simp)
  | succ k ih =>
    intro s x q h
    unfold newtonLoop at h
    split at h
    · rename_i hc; cases h; exact hc
    · exact ih _ _ q h

theorem localNewton_converged {nm : NewtonMethod K S n} {F : (Fin n → K) → Fin n → K} {J : (Fin n → K) → Matrix (Fin n) (Fin n) K} {b : Fin n → K} {s : S} {x : Fin n → K} {q : S × (Fin n → K)}
    (h : localNewton nm F J b s x = some q) : nm.converged (F x - b) (F q.2 - b) = true :=
  newtonLoop_converged nm F J b _ _ s x q h

/-- Without memory the iterates are the same from any state. -/
theorem newtonLoop_memoryless {nm : NewtonMethod K S n} (hm : nm.Memoryless) (F : (Fin n → K) → Fin n → K) (J : (Fin n → K) → Matrix (Fin n) (Fin n) K) (b r0 : Fin n → K) (k : Nat) :
    ∀ (s s' : S) (r x : Fin n → K), (newtonLoop (M := Fin n → K) nm (fun x => x) (fun _ x => x) (fun _ => b) F J r0 k s r x).map Prod.snd =
      (newtonLoop (M := Fin n → K) nm (fun x => x) (fun _ x => x) (fun _ => b) F J r0 k s' r x).map Prod.snd := by
  induction k with
  | zero =>
    intro s s' r x
    unfold newtonLoop
    split <;> rfl
  | succ k ih =>
    intro s s' r x
    unfold newtonLoop
    split
    · rfl
    · have := hm s s' (fun y => F y - b) J r x
      simp only [] at this ⊢
      rw [this]
      exact ih _ _ _ _

theorem localNewton_memoryless {nm : NewtonMethod K S n} (hm : nm.Memoryless) (F : (Fin n → K) → Fin n → K) (J : (Fin n → K) → Matrix (Fin n) (Fin n) K) (b : Fin n → K) (s s' : S) (x : Fin n → K) :
    (localNewton nm F J b s x).map Prod.snd = (localNewton nm F J b s' x).map Prod.snd :=
  newtonLoop_memoryless hm F J b _ _ s s' _ x

/-- The loop of `solve`. -/
def solveLoop (nm : NewtonMethod K S n) (F : κ → (Fin n → K) → Fin n → K) (J : κ → (Fin n → K) → Matrix (Fin n) (Fin n) K) (index : κ → Nat) (soa : Bool) (N u b : Nat)
    (sched : List (κ × Nat)) (st : (Nat → S) × FieldMem K) : Option ((Nat → S) × FieldMem K) :=
  sched.foldlM (fun (st : (Nat → S) × FieldMem K) (ct : κ × Nat) =>
      match solveCell nm (F ct.1) (J ct.1) soa N u b (index ct.1) (st.1 ct.2) st.2 with
      | none => none
      | some (s', m') => some (Function.update st.1 ct.2 s', m')) st

theorem solveLoop_cons (nm : NewtonMethod K S n) (F : κ → (Fin n → K) → Fin n → K) (J : κ → (Fin n → K) → Matrix (Fin n) (Fin n) K) (index : κ → Nat) (soa : Bool) {N u b : Nat} (ct : κ × Nat)
    (sched : List (κ × Nat)) (st : (Nat → S) × FieldMem K) (hN : index ct.1 < N) (hub : b ≠ u ∨ (1 < n ∧ soa = true)) :
    solveLoop nm F J index soa N u b (ct :: sched) st =
      match localNewton nm (F ct.1) (J ct.1) (readLocal soa N st.2 b (index ct.1)) (st.1 ct.2) (readLocal soa N st.2 u (index ct.1)) with
      | none => none
      | some q => solveLoop nm F J index soa N u b sched (Function.update st.1 ct.2 q.1, writeLocal soa N st.2 u (index ct.1) q.2) := by
  unfold solveLoop
  rw [List.foldlM_cons, solveCell_eq nm _ _ soa hN hub]
  match localNewton nm (F ct.1) (J ct.1) (readLocal soa N st.2 b (index ct.1)) (st.1 ct.2) (readLocal soa N st.2 u (index ct.1)) with
  | none => rfl
  | some q => rfl

variable {nm : NewtonMethod K S n} {F : κ → (Fin n → K) → Fin n → K} {J : κ → (Fin n → K) → Matrix (Fin n) (Fin n) K} {index : κ → Nat} {soa : Bool} {N u b : Nat}

theorem solveLoop_ok (hub : b ≠ u ∨ (1 < n ∧ soa = true)) (sched : List (κ × Nat)) : ∀ (st st' : (Nat → S) × FieldMem K), GoodSchedule index N sched → solveLoop nm F J index soa N u b sched st = some st' →
    (∀ f, f ≠ u → st'.2 f = st.2 f) ∧
    (∀ p, (∀ ct ∈ sched, ∀ i : Fin n, fieldPos soa N (index ct.1) i ≠ p) → st'.2 u p = st.2 u p) ∧
    ∀ ct ∈ sched, ∃ s s', localNewton nm (F ct.1) (J ct.1) (readLocal soa N st.2 b (index ct.1)) s (readLocal soa N st.2 u (index ct.1)) = some (s', readLocal soa N st'.2 u (index ct.1)) := by
  induction sched with
  | nil => intro st st' _ h; cases h; exact ⟨fun _ _ => rfl, fun _ _ => rfl, by simp⟩
  | cons ct sched ih =>
    intro st st' hg h
    have hN : index ct.1 < N := hg.lt ct (List.mem_cons_self ..)
    have hnd := hg.nodup
    rw [List.map_cons, List.nodup_cons] at hnd
    rw [solveLoop_cons nm F J index soa ct sched st hN hub] at h
    match hq : localNewton nm (F ct.1) (J ct.1) (readLocal soa N st.2 b (index ct.1)) (st.1 ct.2) (readLocal soa N st.2 u (index ct.1)) with
    | none => rw [hq] at h; exact absurd h (by simp)
    | some q =>
      rw [hq] at h
      obtain ⟨i1, i2, i3⟩ := ih _ st' ⟨hnd.2, fun ct' h' => hg.lt ct' (List.mem_cons_of_mem _ h')⟩ h
      have hother : ∀ ct' ∈ sched, index ct'.1 ≠ index ct.1 := fun ct' h' e => hnd.1 (e ▸ List.mem_map_of_mem h')
      refine ⟨fun f hf => ?_, fun p hp => ?_, fun ct' h' => ?_⟩
      · rw [i1 f hf]; exact Function.update_of_ne hf _ _
      · rw [i2 p (fun ct' h' => hp ct' (List.mem_cons_of_mem _ h'))]
        show Function.update st.2 u _ u p = _
        rw [Function.update_self]
        exact writeArray_other soa _ _ p (hp ct (List.mem_cons_self ..))
      · rcases List.mem_cons.1 h' with rfl | h''
        · refine ⟨st.1 ct'.2, q.1, ?_⟩
          rw [hq]
          have : readLocal soa N st'.2 u (index ct'.1) = q.2 := by
            rw [← readLocal_write soa hN st.2 u q.2]
            funext i
            exact i2 _ fun ct2 h2 j e => hother ct2 h2 (fieldPos_inj (hg.lt ct2 (List.mem_cons_of_mem _ h2)) hN e).1
          rw [this]
        · obtain ⟨s, s', e⟩ := i3 ct' h''
          have hN' := hg.lt ct' h'
          rw [readLocal_write_cell soa hN hN' (hother ct' h''), readLocal_write_cell soa hN hN' (hother ct' h'')] at e
          exact ⟨s, s', e⟩

theorem solveLoop_some (hm : nm.Memoryless) (hub : b ≠ u ∨ (1 < n ∧ soa = true)) (sched : List (κ × Nat)) : ∀ (st : (Nat → S) × FieldMem K), GoodSchedule index N sched →
    (∀ ct ∈ sched, ∃ s, (localNewton nm (F ct.1) (J ct.1) (readLocal soa N st.2 b (index ct.1)) s (readLocal soa N st.2 u (index ct.1))).isSome) →
    ∃ st', solveLoop nm F J index soa N u b sched st = some st' := by
  induction sched with
  | nil => intro st _ _; exact ⟨st, rfl⟩
  | cons ct sched ih =>
    intro st hg h
    have hN : index ct.1 < N := hg.lt ct (List.mem_cons_self ..)
    have hnd := hg.nodup
    rw [List.map_cons, List.nodup_cons] at hnd
    rw [solveLoop_cons nm F J index soa ct sched st hN hub]
    have hother : ∀ ct' ∈ sched, index ct'.1 ≠ index ct.1 := fun ct' h' e => hnd.1 (e ▸ List.mem_map_of_mem h')
    obtain ⟨s, hs⟩ := h ct (List.mem_cons_self ..)
    have e := localNewton_memoryless hm (F ct.1) (J ct.1) (readLocal soa N st.2 b (index ct.1)) s (st.1 ct.2) (readLocal soa N st.2 u (index ct.1))
    match hq : localNewton nm (F ct.1) (J ct.1) (readLocal soa N st.2 b (index ct.1)) (st.1 ct.2) (readLocal soa N st.2 u (index ct.1)) with
    | none =>
      rw [hq] at e
      obtain ⟨q, hq'⟩ := Option.isSome_iff_exists.1 hs
      rw [hq'] at e
      exact absurd e (by simp)
    | some q =>
      refine ih _ ⟨hnd.2, fun ct' h' => hg.lt ct' (List.mem_cons_of_mem _ h')⟩ fun ct' h' => ?_
      have hN' := hg.lt ct' (List.mem_cons_of_mem _ h')
      simp only []
      rw [readLocal_write_cell soa hN hN' (hother ct' h'), readLocal_write_cell soa hN hN' (hother ct' h')]
      exact h ct' (List.mem_cons_of_mem _ h')

end

section
variable {K κ : Type} [Field K] {n : Nat}

theorem blockVec_eq (A : Matrix (Fin n) (Fin n) K) (x : Fin n → K) (i : Fin n) : blockVec A x i = ∑ j, A i j * x j := by
  have h : ∀ (l : List (Fin n)) (a : K), l.foldl (fun r j => r + A i j * x j) a = a + (l.map fun j => A i j * x j).sum := fun l => by
    induction l with
    | nil => intro a; simp
    | cons j l ih => intro a; rw [List.foldl_cons, ih, List.map_cons, List.sum_cons]; ring
  unfold blockVec
  rw [h, zero_add, ← List.ofFn_eq_map, List.sum_ofFn]

end

end Samurai
