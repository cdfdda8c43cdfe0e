/- Lemmas about the life of the solvers. -/
import Verif.Spec.SolverLife
import Mathlib.Logic.Equiv.Basic
import Mathlib.Order.Basic

namespace Samurai

/-- Each object of PETSc held by a solver is alive and belongs to this solver only; the matrix of the Krylov handle of a solver is the matrix of this solver. -/
structure SolverInv (h : PetscHeap) (objs : Nat → Option SolverObj) : Prop where
  kspLt : ∀ a o k, objs a = some o → o.ksp = some k → k < h.next
  matLt : ∀ a o m, objs a = some o → o.mat = some m → m < h.next
  kspRef : ∀ a o k, objs a = some o → o.ksp = some k → h.refs k = 1
  kspDiff : ∀ a o a' o' k, objs a = some o → objs a' = some o' → o.ksp = some k → o'.ksp = some k → a = a'
  matDiff : ∀ a o a' o' m, objs a = some o → objs a' = some o' → o.mat = some m → o'.mat = some m → a = a'
  kspMat : ∀ a o a' o' k, objs a = some o → objs a' = some o' → o.ksp = some k → o'.mat ≠ some k
  opsMat : ∀ a o k m, objs a = some o → o.ksp = some k → h.ops k = some m → o.mat = some m ∧ h.refs m = 2
  matRef : ∀ a o m, objs a = some o → o.mat = some m → (∀ k, o.ksp = some k → h.ops k ≠ some m) → h.refs m = 1
  notSetUp : ∀ a o k, objs a = some o → o.setUp = false → o.ksp = some k → h.ops k = none

variable {h h' : PetscHeap} {objs objs' : Nat → Option SolverObj}

/-- The handles change hands. -/
theorem SolverInv.transfer (I : SolverInv h objs) (σ : Nat → Nat) (hσ : ∀ x y, σ x = σ y → x = y)
    (ho : ∀ x o', objs' x = some o' → (o'.ksp = none ∧ o'.mat = none) ∨ ∃ o, objs (σ x) = some o ∧ o'.ksp = o.ksp ∧ o'.mat = o.mat ∧ (o'.setUp = false → o.setUp = false)) :
    SolverInv h objs' := by
  have hk : ∀ x o' k, objs' x = some o' → o'.ksp = some k → ∃ o, objs (σ x) = some o ∧ o'.ksp = o.ksp ∧ o'.mat = o.mat ∧ (o'.setUp = false → o.setUp = false) := fun x o' k h1 h2 => by
    rcases ho x o' h1 with h | h
    · rw [h.1] at h2; exact absurd h2 (by simp)
    · exact h
  have hm : ∀ x o' k, objs' x = some o' → o'.mat = some k → ∃ o, objs (σ x) = some o ∧ o'.ksp = o.ksp ∧ o'.mat = o.mat ∧ (o'.setUp = false → o.setUp = false) := fun x o' k h1 h2 => by
    rcases ho x o' h1 with h | h
    · rw [h.2] at h2; exact absurd h2 (by simp)
    · exact h
  refine ⟨?_, ?_, ?_, ?_, ?_, ?_, ?_, ?_, ?_⟩
  · intro a o k h1 h2
    obtain ⟨p, e1, e2, -⟩ := hk a o k h1 h2
    exact I.kspLt _ p k e1 (e2 ▸ h2)
  · intro a o k h1 h2
    obtain ⟨p, e1, -, e2, -⟩ := hm a o k h1 h2
    exact I.matLt _ p k e1 (e2 ▸ h2)
  · intro a o k h1 h2
    obtain ⟨p, e1, e2, -⟩ := hk a o k h1 h2
    exact I.kspRef _ p k e1 (e2 ▸ h2)
  · intro a o a' o' k h1 h2 h3 h4
    obtain ⟨p, e1, e2, -⟩ := hk a o k h1 h3
    obtain ⟨p', e1', e2', -⟩ := hk a' o' k h2 h4
    exact hσ _ _ (I.kspDiff _ p _ p' k e1 e1' (e2 ▸ h3) (e2' ▸ h4))
  · intro a o a' o' k h1 h2 h3 h4
    obtain ⟨p, e1, -, e2, -⟩ := hm a o k h1 h3
    obtain ⟨p', e1', -, e2', -⟩ := hm a' o' k h2 h4
    exact hσ _ _ (I.matDiff _ p _ p' k e1 e1' (e2 ▸ h3) (e2' ▸ h4))
  · intro a o a' o' k h1 h2 h3 h4
    obtain ⟨p, e1, e2, -⟩ := hk a o k h1 h3
    obtain ⟨p', e1', -, e2', -⟩ := hm a' o' k h2 h4
    exact I.kspMat _ p _ p' k e1 e1' (e2 ▸ h3) (e2' ▸ h4)
  · intro a o k m h1 h2 h3
    obtain ⟨p, e1, e2, e3, -⟩ := hk a o k h1 h2
    have := I.opsMat _ p k m e1 (e2 ▸ h2) h3
    exact ⟨e3 ▸ this.1, this.2⟩
  · intro a o m h1 h2 h3
    obtain ⟨p, e1, e2, e3, -⟩ := hm a o m h1 h2
    exact I.matRef _ p m e1 (e3 ▸ h2) (fun k hk => h3 k (e2 ▸ hk))
  · intro a o k h1 h2 h3
    obtain ⟨p, e1, e2, -, e4⟩ := hk a o k h1 h3
    exact I.notSetUp _ p k e1 (e4 h2) (e2 ▸ h3)

/-- What is not held by a solver may change. -/
theorem SolverInv.heap (I : SolverInv h objs) (hn : h.next ≤ h'.next) (hr : ∀ a o id, objs a = some o → o.ksp = some id ∨ o.mat = some id → h'.refs id = h.refs id)
    (ho : ∀ a o k, objs a = some o → o.ksp = some k → h'.ops k = h.ops k) : SolverInv h' objs := by
  refine ⟨fun a o k h1 h2 => Nat.lt_of_lt_of_le (I.kspLt a o k h1 h2) hn, fun a o k h1 h2 => Nat.lt_of_lt_of_le (I.matLt a o k h1 h2) hn, fun a o k h1 h2 => ?_, I.kspDiff, I.matDiff, I.kspMat,
    fun a o k m h1 h2 h3 => ?_, fun a o m h1 h2 h3 => ?_, fun a o k h1 h2 h3 => ?_⟩
  · rw [hr a o k h1 (.inl h2)]; exact I.kspRef a o k h1 h2
  · rw [ho a o k h1 h2] at h3
    obtain ⟨e1, e2⟩ := I.opsMat a o k m h1 h2 h3
    exact ⟨e1, by rw [hr a o m h1 (.inr e1)]; exact e2⟩
  · rw [hr a o m h1 (.inr h2)]
    exact I.matRef a o m h1 h2 fun k hk => by rw [← ho a o k h1 hk]; exact h3 k hk
  · rw [ho a o k h1 h3]; exact I.notSetUp a o k h1 h2 h3

theorem release_ok {id : Nat} (hr : h.refs id ≠ 0) : h.release id = .ok { h with refs := Function.update h.refs id (h.refs id - 1) } := by
  unfold PetscHeap.release; rw [if_neg hr]

/-- The objects of a solver are freed, nothing else changes. -/
theorem SolverInv.destroyed (I : SolverInv h objs) {a : Nat} {o : SolverObj} (ha : objs a = some o) :
    ∃ h', destroyPetsc h o = .ok (h', { o with ksp := none, mat := none }) ∧ h'.next = h.next ∧ h'.ops = h.ops ∧ h'.ctx = h.ctx ∧ h'.built = h.built ∧
      (∀ id, o.ksp = some id ∨ o.mat = some id → h'.refs id = 0) ∧ ∀ id, o.ksp ≠ some id → o.mat ≠ some id → h'.refs id = h.refs id := by
  unfold destroyPetsc
  match hm : o.mat, hk : o.ksp with
  | none, none => exact ⟨h, by simp, rfl, rfl, rfl, rfl, by simp, fun _ _ _ => rfl⟩
  | some m, none =>
    have h1 := I.matRef a o m ha hm (by rw [hk]; simp)
    refine ⟨{ h with refs := Function.update h.refs m (h.refs m - 1) }, by simp only [release_ok (show h.refs m ≠ 0 by omega)], rfl, rfl, rfl, rfl, fun id hid => ?_, fun id _ hid => ?_⟩
    · obtain rfl : m = id := by simpa using hid
      simp [h1]
    · exact Function.update_of_ne (fun e => hid (by rw [e])) _ _
  | none, some k =>
    have h1 := I.kspRef a o k ha hk
    have h2 : h.ops k = none := by
      by_contra hc
      obtain ⟨m, hm'⟩ := Option.ne_none_iff_exists'.1 hc
      have := (I.opsMat a o k m ha hk hm').1
      rw [hm] at this
      exact absurd this (by simp)
    refine ⟨{ h with refs := Function.update h.refs k 0 }, by simp [PetscHeap.destroyKrylov, release_ok (show h.refs k ≠ 0 by omega), h1, h2], rfl, rfl, rfl, rfl, fun id hid => ?_, fun id hid _ => ?_⟩
    · obtain rfl : k = id := by simpa using hid
      simp
    · exact Function.update_of_ne (fun e => hid (by rw [e])) _ _
  | some m, some k =>
    have h1 := I.kspRef a o k ha hk
    have hne : k ≠ m := fun e => I.kspMat a o a o k ha ha hk (by rw [hm, e])
    by_cases h2 : h.ops k = some m
    · have h3 := (I.opsMat a o k m ha hk h2).2
      refine ⟨{ h with refs := Function.update (Function.update (Function.update h.refs m 1) k 0) m 0 }, ?_, rfl, rfl, rfl, rfl, fun id hid => ?_, fun id hid hid' => ?_⟩
      · have e1 := release_ok (show h.refs m ≠ 0 by omega)
        rw [h3] at e1
        simp only [e1, PetscHeap.destroyKrylov]
        rw [release_ok (by simp [hne, h1])]
        simp only [Function.update_of_ne hne, h1, Function.update_self, if_true, h2]
        rw [release_ok (by simp [hne.symm])]
        simp [hne.symm]
      · have : id = k ∨ id = m := by simpa [eq_comm] using hid
        rcases this with rfl | rfl
        · simp [hne]
        · simp
      · have n1 : id ≠ k := fun e => hid (by rw [e])
        have n2 : id ≠ m := fun e => hid' (by rw [e])
        simp [n1, n2]
    · have h2' : h.ops k = none := by
        by_contra hc
        obtain ⟨m', hm'⟩ := Option.ne_none_iff_exists'.1 hc
        have := (I.opsMat a o k m' ha hk hm').1
        rw [hm] at this
        exact h2 (by rw [hm', this])
      have h3 := I.matRef a o m ha hm (fun k' hk' => by rw [hk] at hk'; cases hk'; exact h2)
      refine ⟨{ h with refs := Function.update (Function.update h.refs m 0) k 0 }, ?_, rfl, rfl, rfl, rfl, fun id hid => ?_, fun id hid hid' => ?_⟩
      · have e1 := release_ok (show h.refs m ≠ 0 by omega)
        rw [h3] at e1
        simp only [e1, PetscHeap.destroyKrylov]
        rw [release_ok (by simp [hne, h1])]
        simp only [Function.update_of_ne hne, h1, Function.update_self, if_true, h2']
      · have : id = k ∨ id = m := by simpa [eq_comm] using hid
        rcases this with rfl | rfl
        · simp
        · simp [hne.symm]
      · have n1 : id ≠ k := fun e => hid (by rw [e])
        have n2 : id ≠ m := fun e => hid' (by rw [e])
        simp [n1, n2]

/-- A solver without objects. -/
theorem SolverInv.empty (I : SolverInv h objs) (a : Nat) (r : Option SolverObj) (hr : ∀ o, r = some o → o.ksp = none ∧ o.mat = none) : SolverInv h (Function.update objs a r) := by
  refine I.transfer id (fun _ _ e => e) fun x o' hx => ?_
  by_cases hxa : x = a
  · subst hxa
    rw [Function.update_self] at hx
    exact .inl (hr o' hx)
  · rw [Function.update_of_ne hxa] at hx
    exact .inr ⟨o', hx, rfl, rfl, fun h => h⟩

/-- After the objects of the solver `a` are freed. -/
theorem SolverInv.drop (I : SolverInv h objs) {a : Nat} {o : SolverObj} (ha : objs a = some o) (hn : h'.next = h.next) (hops : h'.ops = h.ops)
    (hsame : ∀ id, o.ksp ≠ some id → o.mat ≠ some id → h'.refs id = h.refs id) (r : Option SolverObj) (hr : ∀ o, r = some o → o.ksp = none ∧ o.mat = none) :
    SolverInv h' (Function.update objs a r) := by
  refine (I.empty a r hr).heap (Nat.le_of_eq hn.symm) (fun x p id hx hid => ?_) (fun _ _ _ _ _ => by rw [hops])
  by_cases hxa : x = a
  · subst hxa
    rw [Function.update_self] at hx
    have := hr p hx
    rw [this.1, this.2] at hid
    simp at hid
  · rw [Function.update_of_ne hxa] at hx
    refine hsame id (fun e => ?_) fun e => ?_
    · rcases hid with hid | hid
      · exact hxa (I.kspDiff _ _ _ _ id hx ha hid e)
      · exact I.kspMat _ _ _ _ id ha hx e hid
    · rcases hid with hid | hid
      · exact I.kspMat _ _ _ _ id hx ha hid e
      · exact hxa (I.matDiff _ _ _ _ id hx ha hid e)

theorem create_old (h : PetscHeap) {id : Nat} (hid : id < h.next) : h.create.refs id = h.refs id ∧ h.create.ops id = h.ops id ∧ h.create.ctx id = h.ctx id := by
  have : id ≠ h.next := by omega
  unfold PetscHeap.create
  simp [this]

theorem SolverInv.created (I : SolverInv h objs) : SolverInv h.create objs :=
  I.heap (Nat.le_succ _) (fun a o id h1 h2 => (create_old h (h2.elim (I.kspLt a o id h1) (I.matLt a o id h1))).1) (fun a o k h1 h2 => (create_old h (I.kspLt a o k h1 h2)).2.1)

/-- `_configure_solver()` on a solver without objects. -/
theorem SolverInv.configured (I : SolverInv h objs) (a : Nat) (o : SolverObj) (hm : o.mat = none) : SolverInv h.create (Function.update objs a (some { o with ksp := some h.next })) := by
  have J := (I.empty a none (by simp)).created
  have hlt : ∀ x p k, x ≠ a → objs x = some p → p.ksp = some k ∨ p.mat = some k → k ≠ h.next := fun x p k _ h1 h2 => by
    have := h2.elim (I.kspLt x p k h1) (I.matLt x p k h1)
    omega
  have hold : ∀ x p, x ≠ a → (Function.update objs a (some { o with ksp := some h.next }) x = some p ↔ objs x = some p) := fun x p hx => by rw [Function.update_of_ne hx]
  have hJ : ∀ x p, x ≠ a → objs x = some p → Function.update objs a none x = some p := fun x p hx hp => by rw [Function.update_of_ne hx]; exact hp
  have hself : ∀ p, Function.update objs a (some { o with ksp := some h.next }) a = some p → p = { o with ksp := some h.next } := fun p hp => by
    rw [Function.update_self] at hp; exact (Option.some.inj hp).symm
  refine ⟨?_, ?_, ?_, ?_, ?_, ?_, ?_, ?_, ?_⟩
  · intro x p k h1 h2
    by_cases hx : x = a
    · subst hx
      rw [hself p h1] at h2
      have : k = h.next := by simpa [eq_comm] using h2
      show k < h.next + 1
      omega
    · exact J.kspLt x p k (hJ x p hx ((hold x p hx).1 h1)) h2
  · intro x p k h1 h2
    by_cases hx : x = a
    · subst hx
      rw [hself p h1] at h2
      exact absurd h2 (by simp [hm])
    · exact J.matLt x p k (hJ x p hx ((hold x p hx).1 h1)) h2
  · intro x p k h1 h2
    by_cases hx : x = a
    · subst hx
      rw [hself p h1] at h2
      have : k = h.next := by simpa [eq_comm] using h2
      subst this
      exact Function.update_self _ _ _
    · exact J.kspRef x p k (hJ x p hx ((hold x p hx).1 h1)) h2
  · intro x p y q k h1 h2 h3 h4
    by_cases hx : x = a <;> by_cases hy : y = a
    · rw [hx, hy]
    · subst hx
      rw [hself p h1] at h3
      have e : k = h.next := by simpa [eq_comm] using h3
      exact absurd e (hlt y q k hy ((hold y q hy).1 h2) (.inl h4))
    · subst hy
      rw [hself q h2] at h4
      have e : k = h.next := by simpa [eq_comm] using h4
      exact absurd e (hlt x p k hx ((hold x p hx).1 h1) (.inl h3))
    · exact J.kspDiff x p y q k (hJ x p hx ((hold x p hx).1 h1)) (hJ y q hy ((hold y q hy).1 h2)) h3 h4
  · intro x p y q k h1 h2 h3 h4
    by_cases hx : x = a <;> by_cases hy : y = a
    · rw [hx, hy]
    · subst hx
      rw [hself p h1] at h3
      exact absurd h3 (by simp [hm])
    · subst hy
      rw [hself q h2] at h4
      exact absurd h4 (by simp [hm])
    · exact J.matDiff x p y q k (hJ x p hx ((hold x p hx).1 h1)) (hJ y q hy ((hold y q hy).1 h2)) h3 h4
  · intro x p y q k h1 h2 h3 h4
    by_cases hy : y = a
    · subst hy
      rw [hself q h2] at h4
      exact absurd h4 (by simp [hm])
    · by_cases hx : x = a
      · subst hx
        rw [hself p h1] at h3
        have e : k = h.next := by simpa [eq_comm] using h3
        exact absurd e (hlt y q k hy ((hold y q hy).1 h2) (.inr h4))
      · exact J.kspMat x p y q k (hJ x p hx ((hold x p hx).1 h1)) (hJ y q hy ((hold y q hy).1 h2)) h3 h4
  · intro x p k m h1 h2 h3
    by_cases hx : x = a
    · subst hx
      rw [hself p h1] at h2
      have e : k = h.next := by simpa [eq_comm] using h2
      subst e
      rw [show h.create.ops h.next = none from Function.update_self _ _ _] at h3
      exact absurd h3 (by simp)
    · exact J.opsMat x p k m (hJ x p hx ((hold x p hx).1 h1)) h2 h3
  · intro x p m h1 h2 h3
    by_cases hx : x = a
    · subst hx
      rw [hself p h1] at h2
      exact absurd h2 (by simp [hm])
    · exact J.matRef x p m (hJ x p hx ((hold x p hx).1 h1)) h2 h3
  · intro x p k h1 h2 h3
    by_cases hx : x = a
    · subst hx
      rw [hself p h1] at h3
      have e : k = h.next := by simpa [eq_comm] using h3
      subst e
      exact Function.update_self _ _ _
    · exact J.notSetUp x p k (hJ x p hx ((hold x p hx).1 h1)) h2 h3

/-- A matrix is created for the solver `a`, whose Krylov handle has none. -/
theorem SolverInv.matrix (I : SolverInv h objs) {a : Nat} {o : SolverObj} (ha : objs a = some o) (hk : ∀ k, o.ksp = some k → h.ops k = none) (b : Bool) (bl : Nat → Option Nat) :
    SolverInv { h.create with built := bl } (Function.update objs a (some { o with mat := some h.next, setUp := b })) := by
  have J : SolverInv { h.create with built := bl } objs := I.created.heap (Nat.le_refl _) (fun _ _ _ _ _ => rfl) (fun _ _ _ _ _ => rfl)
  have hlt : ∀ x p k, objs x = some p → p.ksp = some k ∨ p.mat = some k → k ≠ h.next := fun x p k h1 h2 => by
    have := h2.elim (I.kspLt x p k h1) (I.matLt x p k h1)
    omega
  have hops : ∀ k, o.ksp = some k → ({ h.create with built := bl } : PetscHeap).ops k = none := fun k h1 => by
    show h.create.ops k = none
    rw [(create_old h (I.kspLt a o k ha h1)).2.1]; exact hk k h1
  -- each solver of the new state, with its solver in the old one
  have hget : ∀ x p, Function.update objs a (some { o with mat := some h.next, setUp := b }) x = some p →
      (x = a ∧ p = { o with mat := some h.next, setUp := b }) ∨ (x ≠ a ∧ objs x = some p) := fun x p hp => by
    by_cases hx : x = a
    · subst hx
      rw [Function.update_self] at hp
      exact .inl ⟨rfl, (Option.some.inj hp).symm⟩
    · rw [Function.update_of_ne hx] at hp
      exact .inr ⟨hx, hp⟩
  have hksp : ∀ x p, Function.update objs a (some { o with mat := some h.next, setUp := b }) x = some p → ∃ p', objs x = some p' ∧ p.ksp = p'.ksp := fun x p hp => by
    rcases hget x p hp with ⟨rfl, rfl⟩ | ⟨-, h1⟩
    · exact ⟨o, ha, rfl⟩
    · exact ⟨p, h1, rfl⟩
  refine ⟨?_, ?_, ?_, ?_, ?_, ?_, ?_, ?_, ?_⟩
  · intro x p k h1 h2
    obtain ⟨p', e1, e2⟩ := hksp x p h1
    exact J.kspLt x p' k e1 (e2 ▸ h2)
  · intro x p m h1 h2
    rcases hget x p h1 with ⟨rfl, rfl⟩ | ⟨-, h3⟩
    · have : m = h.next := by simpa [eq_comm] using h2
      show m < h.next + 1
      omega
    · exact J.matLt x p m h3 h2
  · intro x p k h1 h2
    obtain ⟨p', e1, e2⟩ := hksp x p h1
    exact J.kspRef x p' k e1 (e2 ▸ h2)
  · intro x p y q k h1 h2 h3 h4
    obtain ⟨p', e1, e2⟩ := hksp x p h1
    obtain ⟨q', f1, f2⟩ := hksp y q h2
    exact J.kspDiff x p' y q' k e1 f1 (e2 ▸ h3) (f2 ▸ h4)
  · intro x p y q m h1 h2 h3 h4
    rcases hget x p h1 with ⟨rfl, rfl⟩ | ⟨hx, h1'⟩ <;> rcases hget y q h2 with ⟨rfl, rfl⟩ | ⟨hy, h2'⟩
    · rfl
    · have : m = h.next := by simpa [eq_comm] using h3
      exact absurd this (hlt y q m h2' (.inr h4))
    · have : m = h.next := by simpa [eq_comm] using h4
      exact absurd this (hlt x p m h1' (.inr h3))
    · exact J.matDiff x p y q m h1' h2' h3 h4
  · intro x p y q k h1 h2 h3 h4
    obtain ⟨p', e1, e2⟩ := hksp x p h1
    rcases hget y q h2 with ⟨rfl, rfl⟩ | ⟨hy, h2'⟩
    · have : k = h.next := by simpa [eq_comm] using h4
      exact absurd this (hlt x p' k e1 (.inl (e2 ▸ h3)))
    · exact J.kspMat x p' y q k e1 h2' (e2 ▸ h3) h4
  · intro x p k m h1 h2 h3
    rcases hget x p h1 with ⟨rfl, rfl⟩ | ⟨hx, h1'⟩
    · rw [hops k h2] at h3
      exact absurd h3 (by simp)
    · exact J.opsMat x p k m h1' h2 h3
  · intro x p m h1 h2 h3
    rcases hget x p h1 with ⟨rfl, rfl⟩ | ⟨hx, h1'⟩
    · have : m = h.next := by simpa [eq_comm] using h2
      subst this
      exact Function.update_self _ _ _
    · exact J.matRef x p m h1' h2 h3
  · intro x p k h1 h2 h3
    rcases hget x p h1 with ⟨rfl, rfl⟩ | ⟨hx, h1'⟩
    · exact hops k h3
    · exact J.notSetUp x p k h1' h2 h3

/-- The matrix of the solver `a` is given to its Krylov handle. -/
theorem SolverInv.attach (I : SolverInv h objs) {a k m : Nat} {o : SolverObj} (ha : objs a = some o) (hk : o.ksp = some k) (hm : o.mat = some m) (hops : h.ops k = none) (c : Nat → Option Nat) :
    SolverInv { h with refs := Function.update h.refs m 2, ops := Function.update h.ops k (some m), ctx := c } (Function.update objs a (some { o with setUp := true })) := by
  have hget : ∀ x p, Function.update objs a (some { o with setUp := true }) x = some p → ∃ p', objs x = some p' ∧ p.ksp = p'.ksp ∧ p.mat = p'.mat ∧ (x = a → p = { o with setUp := true }) ∧
      (x ≠ a → p = p') := fun x p hp => by
    by_cases hx : x = a
    · subst hx
      rw [Function.update_self] at hp
      cases hp
      exact ⟨o, ha, rfl, rfl, fun _ => rfl, fun h => absurd rfl h⟩
    · rw [Function.update_of_ne hx] at hp
      exact ⟨p, hp, rfl, rfl, fun h => absurd h hx, fun _ => rfl⟩
  have hkm : k ≠ m := fun e => I.kspMat a o a o k ha ha hk (by rw [hm, e])
  have hotherk : ∀ x p k', x ≠ a → objs x = some p → p.ksp = some k' → k' ≠ k ∧ k' ≠ m := fun x p k' hx h1 h2 =>
    ⟨fun e => hx (I.kspDiff x p a o k h1 ha (e ▸ h2) hk), fun e => I.kspMat x p a o k' h1 ha h2 (by rw [hm, e])⟩
  refine ⟨?_, ?_, ?_, ?_, ?_, ?_, ?_, ?_, ?_⟩
  · intro x p j h1 h2
    obtain ⟨p', e1, e2, -⟩ := hget x p h1
    exact I.kspLt x p' j e1 (e2 ▸ h2)
  · intro x p j h1 h2
    obtain ⟨p', e1, -, e2, -⟩ := hget x p h1
    exact I.matLt x p' j e1 (e2 ▸ h2)
  · intro x p j h1 h2
    obtain ⟨p', e1, e2, -⟩ := hget x p h1
    have hj : j ≠ m := fun e => I.kspMat x p' a o j e1 ha (e2 ▸ h2) (by rw [hm, e])
    show Function.update h.refs m 2 j = 1
    rw [Function.update_of_ne hj]
    exact I.kspRef x p' j e1 (e2 ▸ h2)
  · intro x p y q j h1 h2 h3 h4
    obtain ⟨p', e1, e2, -⟩ := hget x p h1
    obtain ⟨q', f1, f2, -⟩ := hget y q h2
    exact I.kspDiff x p' y q' j e1 f1 (e2 ▸ h3) (f2 ▸ h4)
  · intro x p y q j h1 h2 h3 h4
    obtain ⟨p', e1, -, e2, -⟩ := hget x p h1
    obtain ⟨q', f1, -, f2, -⟩ := hget y q h2
    exact I.matDiff x p' y q' j e1 f1 (e2 ▸ h3) (f2 ▸ h4)
  · intro x p y q j h1 h2 h3 h4
    obtain ⟨p', e1, e2, -⟩ := hget x p h1
    obtain ⟨q', f1, -, f2, -⟩ := hget y q h2
    exact I.kspMat x p' y q' j e1 f1 (e2 ▸ h3) (f2 ▸ h4)
  · intro x p j m' h1 h2 h3
    obtain ⟨p', e1, e2, e3, e4, e5⟩ := hget x p h1
    by_cases hx : x = a
    · subst hx
      rw [e4 rfl] at h2 ⊢
      obtain rfl : k = j := by rw [hk] at h2; exact Option.some.inj h2
      have h3' : some m = some m' := (Function.update_self (β := fun _ => Option Nat) k (some m) h.ops).symm.trans h3
      cases h3'
      exact ⟨hm, Function.update_self _ _ _⟩
    · have hj := hotherk x p' j hx e1 (e2 ▸ h2)
      have h3' : h.ops j = some m' := by rw [← h3]; exact (Function.update_of_ne hj.1 _ _).symm
      obtain ⟨f1, f2⟩ := I.opsMat x p' j m' e1 (e2 ▸ h2) h3'
      refine ⟨e3 ▸ f1, ?_⟩
      have hm' : m' ≠ m := fun e => hx (I.matDiff x p' a o m e1 ha (e ▸ f1) hm)
      show Function.update h.refs m 2 m' = 2
      rw [Function.update_of_ne hm']
      exact f2
  · intro x p m' h1 h2 h3
    obtain ⟨p', e1, e2, e3, e4, e5⟩ := hget x p h1
    by_cases hx : x = a
    · subst hx
      rw [e4 rfl] at h2 h3
      obtain rfl : m = m' := by rw [hm] at h2; exact Option.some.inj h2
      exact absurd (Function.update_self _ _ _) (h3 k hk)
    · have hm' : m' ≠ m := fun e => hx (I.matDiff x p' a o m e1 ha (e ▸ e3 ▸ h2) hm)
      show Function.update h.refs m 2 m' = 1
      rw [Function.update_of_ne hm']
      refine I.matRef x p' m' e1 (e3 ▸ h2) fun j hj hc => h3 j (e2 ▸ hj) ?_
      have := hotherk x p' j hx e1 hj
      show Function.update h.ops k (some m) j = some m'
      rw [Function.update_of_ne this.1]
      exact hc
  · intro x p j h1 h2 h3
    obtain ⟨p', e1, e2, e3, e4, e5⟩ := hget x p h1
    by_cases hx : x = a
    · subst hx
      rw [e4 rfl] at h2
      exact absurd h2 (by simp)
    · have := hotherk x p' j hx e1 (e2 ▸ h3)
      show Function.update h.ops k (some m) j = none
      rw [Function.update_of_ne this.1]
      exact I.notSetUp x p' j e1 (e5 hx ▸ h2) (e2 ▸ h3)

/-- The invariant of the programs: `C`: the callbacks know their solver; `L`: all the live objects of PETSc belong to a solver; `B`: the matrices are those of the unknowns. -/
structure SolverGood (C L B : Prop) (h : PetscHeap) (objs : Nat → Option SolverObj) : Prop where
  inv : SolverInv h objs
  ctx : C → ∀ a o k, objs a = some o → o.ksp = some k → h.ctx k = none ∨ (o.cls = .nonlinear ∧ h.ctx k = some a)
  owned : L → ∀ id, h.refs id ≠ 0 → ∃ a o, objs a = some o ∧ (o.ksp = some id ∨ o.mat = some id)
  nonlin : L → ∀ a o, objs a = some o → o.cls = .nonlinear ∧ (o.mat ≠ none → o.setUp = true)
  built : B → ∀ a o m, objs a = some o → o.mat = some m → h.built m = o.unknown

variable {C L B : Prop}

theorem SolverGood.init : SolverGood C L B SolverState.init.heap SolverState.init.objs := by
  refine ⟨⟨?_, ?_, ?_, ?_, ?_, ?_, ?_, ?_, ?_⟩, ?_, fun _ id h => absurd rfl h, ?_, ?_⟩ <;> intros <;> rename_i a b c <;> simp_all [SolverState.init]

/-- The update of a solver, seen from the new state. -/
theorem get_update {objs : Nat → Option SolverObj} {a : Nat} {r : Option SolverObj} {x : Nat} {p : SolverObj} (h : Function.update objs a r x = some p) : (x = a ∧ r = some p) ∨ (x ≠ a ∧ objs x = some p) := by
  by_cases hx : x = a
  · subst hx
    rw [Function.update_self] at h
    exact .inl ⟨rfl, h⟩
  · rw [Function.update_of_ne hx] at h
    exact .inr ⟨hx, h⟩

theorem SolverGood.drop (G : SolverGood C L B h objs) {a : Nat} {o : SolverObj} (ha : objs a = some o) (hn : h'.next = h.next) (hops : h'.ops = h.ops) (hctx : h'.ctx = h.ctx) (hb : h'.built = h.built)
    (hzero : ∀ id, o.ksp = some id ∨ o.mat = some id → h'.refs id = 0) (hsame : ∀ id, o.ksp ≠ some id → o.mat ≠ some id → h'.refs id = h.refs id)
    (r : Option SolverObj) (hr : ∀ p, r = some p → p.ksp = none ∧ p.mat = none ∧ p.cls = o.cls) : SolverGood C L B h' (Function.update objs a r) := by
  refine ⟨G.inv.drop ha hn hops hsame r (fun p hp => ⟨(hr p hp).1, (hr p hp).2.1⟩), fun hC x p k h1 h2 => ?_, fun hL id hid => ?_, fun hL x p h1 => ?_, fun hB x p m h1 h2 => ?_⟩
  · rcases get_update h1 with ⟨rfl, e⟩ | ⟨-, e⟩
    · rw [(hr p e).1] at h2; exact absurd h2 (by simp)
    · rw [hctx]; exact G.ctx hC x p k e h2
  · by_cases ho : o.ksp = some id ∨ o.mat = some id
    · exact absurd (hzero id ho) hid
    · rw [not_or] at ho
      rw [hsame id ho.1 ho.2] at hid
      obtain ⟨x, p, e1, e2⟩ := G.owned hL id hid
      have hx : x ≠ a := fun e => by
        subst e
        rw [ha] at e1
        cases e1
        exact e2.elim ho.1 ho.2
      exact ⟨x, p, by rw [Function.update_of_ne hx]; exact e1, e2⟩
  · rcases get_update h1 with ⟨rfl, e⟩ | ⟨-, e⟩
    · obtain ⟨e1, e2, e3⟩ := hr p e
      exact ⟨by rw [e3]; exact (G.nonlin hL x o ha).1, fun h => absurd e2 h⟩
    · exact G.nonlin hL x p e
  · rcases get_update h1 with ⟨rfl, e⟩ | ⟨-, e⟩
    · rw [(hr p e).2.1] at h2; exact absurd h2 (by simp)
    · rw [hb]; exact G.built hB x p m e h2

theorem SolverGood.configured (G : SolverGood C L B h objs) (a : Nat) (o : SolverObj) (hm : o.mat = none) (hL : L → o.cls = .nonlinear ∧ ∀ p, objs a = some p → p.ksp = none ∧ p.mat = none) :
    SolverGood C L B (configureSolver h o).1 (Function.update objs a (some (configureSolver h o).2)) := by
  refine ⟨G.inv.configured a o hm, fun hC x p k h1 h2 => ?_, fun hl id hid => ?_, fun hl x p h1 => ?_, fun hB x p m h1 h2 => ?_⟩
  · rcases get_update h1 with ⟨rfl, e⟩ | ⟨-, e⟩
    · cases e
      have : k = h.next := by simpa [configureSolver, eq_comm] using h2
      subst this
      exact .inl (Function.update_self _ _ _)
    · show h.create.ctx k = none ∨ (_ ∧ h.create.ctx k = some x)
      rw [(create_old h (G.inv.kspLt x p k e h2)).2.2]
      exact G.ctx hC x p k e h2
  · by_cases hi : id = h.next
    · exact ⟨a, _, Function.update_self _ _ _, .inl (by rw [hi]; rfl)⟩
    · have : (configureSolver h o).1.refs id = h.refs id := Function.update_of_ne hi _ _
      rw [this] at hid
      obtain ⟨x, p, e1, e2⟩ := G.owned hl id hid
      have hx : x ≠ a := fun e => by
        subst e
        obtain ⟨f1, f2⟩ := (hL hl).2 p e1
        rw [f1, f2] at e2
        simp at e2
      exact ⟨x, p, by rw [Function.update_of_ne hx]; exact e1, e2⟩
  · rcases get_update h1 with ⟨rfl, e⟩ | ⟨-, e⟩
    · cases e
      exact ⟨(hL hl).1, fun h => absurd hm h⟩
    · exact G.nonlin hl x p e
  · rcases get_update h1 with ⟨rfl, e⟩ | ⟨-, e⟩
    · cases e
      exact absurd (hm.symm.trans h2) (by simp)
    · rw [← G.built hB x p m e h2]
      have : m ≠ h.next := by have := G.inv.matLt x p m e h2; omega
      exact Function.update_of_ne this _ _

theorem SolverGood.matrix (G : SolverGood C L B h objs) {a u : Nat} {o : SolverObj} (ha : objs a = some o) (hk : ∀ k, o.ksp = some k → h.ops k = none) (hm : L → o.mat = none) (b : Bool)
    (hb : L → b = true) (hu : o.unknown = some u) :
    SolverGood C L B (makeMatrix h o u).1 (Function.update objs a (some { o with mat := some h.next, setUp := b })) := by
  refine ⟨G.inv.matrix ha hk b _, fun hC x p k h1 h2 => ?_, fun hl id hid => ?_, fun hl x p h1 => ?_, fun hB x p m h1 h2 => ?_⟩
  · rcases get_update h1 with ⟨rfl, e⟩ | ⟨-, e⟩
    · cases e
      show h.create.ctx k = none ∨ (_ ∧ h.create.ctx k = some x)
      rw [(create_old h (G.inv.kspLt x o k ha h2)).2.2]
      exact G.ctx hC x o k ha h2
    · show h.create.ctx k = none ∨ (_ ∧ h.create.ctx k = some x)
      rw [(create_old h (G.inv.kspLt x p k e h2)).2.2]
      exact G.ctx hC x p k e h2
  · by_cases hi : id = h.next
    · exact ⟨a, _, Function.update_self _ _ _, .inr (by rw [hi])⟩
    · have : (makeMatrix h o u).1.refs id = h.refs id := Function.update_of_ne hi _ _
      rw [this] at hid
      obtain ⟨x, p, e1, e2⟩ := G.owned hl id hid
      by_cases hx : x = a
      · subst hx
        rw [ha] at e1
        cases e1
        refine ⟨x, _, Function.update_self _ _ _, .inl ?_⟩
        rw [hm hl] at e2
        simpa using e2
      · exact ⟨x, p, by rw [Function.update_of_ne hx]; exact e1, e2⟩
  · rcases get_update h1 with ⟨rfl, e⟩ | ⟨-, e⟩
    · cases e
      exact ⟨(G.nonlin hl x o ha).1, fun _ => hb hl⟩
    · exact G.nonlin hl x p e
  · rcases get_update h1 with ⟨rfl, e⟩ | ⟨-, e⟩
    · cases e
      have : m = h.next := by simpa [eq_comm] using h2
      subst this
      exact (Function.update_self _ _ _).trans hu.symm
    · rw [← G.built hB x p m e h2]
      have : m ≠ h.next := by have := G.inv.matLt x p m e h2; omega
      exact (Function.update_of_ne this _ _).trans (Function.update_of_ne this _ _)

theorem SolverGood.attach (G : SolverGood C L B h objs) {a : Nat} {o : SolverObj} (ha : objs a = some o) (hops : ∀ k, o.ksp = some k → h.ops k = none) :
    match attachMatrix h o a with
    | .error e => e ≠ .dangling
    | .ok r => SolverGood C L B r.1 (Function.update objs a (some r.2)) ∧ r.2 = { o with setUp := true } := by
  unfold attachMatrix
  match hk : o.ksp, hm : o.mat with
  | none, none => simp
  | none, some _ => simp
  | some _, none => simp
  | some k, some m =>
    have r1 := G.inv.kspRef a o k ha hk
    have r2 := G.inv.matRef a o m ha hm (fun j hj => by rw [hops j hj]; simp)
    have hkm : k ≠ m := fun e => G.inv.kspMat a o a o k ha ha hk (by rw [hm, e])
    have hset : h.setOperators k m = .ok { h with refs := Function.update h.refs m 2, ops := Function.update h.ops k (some m) } := by
      unfold PetscHeap.setOperators
      rw [if_neg (by rw [r1, r2]; simp)]
      simp only [hops k hk, r2]
    simp only [hset]
    have I' := G.inv.attach ha hk hm (hops k hk) (if o.cls = SolverClass.nonlinear then Function.update h.ctx k (some a) else h.ctx)
    simp only [hk, hm] at I'
    refine ⟨⟨I', fun hC x p j h1 h2 => ?_, fun hl id hid => ?_, fun hl x p h1 => ?_, fun hB x p m' h1 h2 => ?_⟩, trivial⟩
    · rcases get_update h1 with ⟨rfl, e⟩ | ⟨hx, e⟩
      · cases e
        have hj : j = k := by exact (Option.some.inj h2).symm
        subst hj
        by_cases hc : o.cls = .nonlinear
        · exact .inr ⟨hc, by simp [hc]⟩
        · simp only [if_neg hc]
          exact G.ctx hC x o j ha hk
      · have hj : j ≠ k := fun e' => hx (G.inv.kspDiff x p a o k e ha (e' ▸ h2) hk)
        by_cases hc : o.cls = .nonlinear
        · simp only [if_pos hc, Function.update_of_ne hj]
          exact G.ctx hC x p j e h2
        · simp only [if_neg hc]
          exact G.ctx hC x p j e h2
    · by_cases hi : id = m
      · exact ⟨a, _, Function.update_self _ _ _, .inr (by rw [hi])⟩
      · have hid' : h.refs id ≠ 0 := by
          intro e
          exact hid ((Function.update_of_ne hi _ _).trans e)
        obtain ⟨x, p, e1, e2⟩ := G.owned hl id hid'
        by_cases hx : x = a
        · subst hx
          rw [ha] at e1
          cases e1
          exact ⟨x, _, Function.update_self _ _ _, by rw [hk, hm] at e2; exact e2⟩
        · exact ⟨x, p, by rw [Function.update_of_ne hx]; exact e1, e2⟩
    · rcases get_update h1 with ⟨rfl, e⟩ | ⟨-, e⟩
      · cases e
        exact ⟨(G.nonlin hl x o ha).1, fun _ => rfl⟩
      · exact G.nonlin hl x p e
    · rcases get_update h1 with ⟨rfl, e⟩ | ⟨-, e⟩
      · cases e
        exact G.built hB x o m' ha (hm.trans h2)
      · exact G.built hB x p m' e h2

theorem SolverGood.setup (G : SolverGood C L B h objs) {a : Nat} {o : SolverObj} (ha : objs a = some o) :
    match setupSolver h o a with
    | .error e => e ≠ .dangling
    | .ok r => SolverGood C L B r.1 (Function.update objs a (some r.2)) := by
  have hself : Function.update objs a (some o) = objs := by rw [← ha]; exact Function.update_eq_self _ _
  unfold setupSolver
  cases hs : o.setUp
  · have hops : ∀ k, o.ksp = some k → h.ops k = none := fun k hk => G.inv.notSetUp a o k ha hs hk
    have hmL : L → o.mat = none := fun hl => by
      by_contra hc
      have := (G.nonlin hl a o ha).2 hc
      rw [hs] at this
      exact absurd this (by simp)
    -- a matrix is created, then given
    have hnew : ∀ u, o.unknown = some u → match attachMatrix (makeMatrix h o u).1 (makeMatrix h o u).2 a with
        | .error e => e ≠ .dangling
        | .ok r => SolverGood C L B r.1 (Function.update objs a (some r.2)) := fun u hu => by
      have G1 := G.matrix ha hops hmL true (fun _ => rfl) hu
      have := G1.attach (Function.update_self _ _ _) (fun k hk => by
        show h.create.ops k = none
        rw [(create_old h (G.inv.kspLt a o k ha hk)).2.1]; exact hops k hk)
      have e1 : attachMatrix (makeMatrix h o u).1 { o with mat := some h.next, setUp := true } a = attachMatrix (makeMatrix h o u).1 (makeMatrix h o u).2 a := rfl
      rw [e1] at this
      match hr : attachMatrix (makeMatrix h o u).1 (makeMatrix h o u).2 a with
      | .error e => rw [hr] at this; exact this
      | .ok r =>
        rw [hr] at this
        have := this.1
        rwa [Function.update_idem] at this
    simp only [Bool.false_eq_true, if_false]
    have hlin : match (match o.unknown with
        | none => .error .stopped
        | some u => attachMatrix (makeMatrix h o u).1 (makeMatrix h o u).2 a : Except SolverErr (PetscHeap × SolverObj)) with
        | .error e => e ≠ .dangling
        | .ok r => SolverGood C L B r.1 (Function.update objs a (some r.2)) := by
      match hu : o.unknown with
      | none => simp
      | some u => exact hnew u hu
    cases hc : o.cls
    · exact hlin
    · simp only []
      unfold ensureMatrix
      match hm : o.mat, hu : o.unknown with
      | some m, _ =>
        simp only []
        have := G.attach ha hops
        match hr : attachMatrix h o a with
        | .error e => rw [hr] at this; exact this
        | .ok r => rw [hr] at this; exact this.1
      | none, none => simp
      | none, some u => exact hnew u hu
    · exact hlin
  · simp only [if_true]
    rw [hself]; exact G

/-- `a = std::move(b)` after the objects of `a` are freed. -/
theorem SolverGood.moved (G : SolverGood C L B h objs) {a b : Nat} {p q : SolverObj} (ha : objs a = some p) (hb : objs b = some q) (hpk : p.ksp = none) (hpm : p.mat = none) (hab : a ≠ b)
    (hcl : p.cls = q.cls) (hC : C → q.cls ≠ .nonlinear) :
    SolverGood C L B h (Function.update (Function.update objs a (some { p with unknown := q.unknown, ksp := q.ksp, mat := q.mat, setUp := q.setUp })) b (some { q with ksp := none, mat := none, setUp := false })) := by
  have hget : ∀ x r, Function.update (Function.update objs a (some { p with unknown := q.unknown, ksp := q.ksp, mat := q.mat, setUp := q.setUp })) b
      (some { q with ksp := none, mat := none, setUp := false }) x = some r →
      (x = b ∧ r = { q with ksp := none, mat := none, setUp := false }) ∨ (x = a ∧ r = { p with unknown := q.unknown, ksp := q.ksp, mat := q.mat, setUp := q.setUp }) ∨ (x ≠ a ∧ x ≠ b ∧ objs x = some r) := fun x r hr => by
    rcases get_update hr with ⟨e1, e2⟩ | ⟨e1, e2⟩
    · exact .inl ⟨e1, (Option.some.inj e2).symm⟩
    · rcases get_update e2 with ⟨e3, e4⟩ | ⟨e3, e4⟩
      · exact .inr (.inl ⟨e3, (Option.some.inj e4).symm⟩)
      · exact .inr (.inr ⟨e3, e1, e4⟩)
  refine ⟨G.inv.transfer (Equiv.swap a b) (fun x y e => (Equiv.swap a b).injective e) fun x r hr => ?_, fun hc x r k h1 h2 => ?_, fun hl id hid => ?_, fun hl x r h1 => ?_, fun hB x r m h1 h2 => ?_⟩
  · rcases hget x r hr with ⟨-, rfl⟩ | ⟨rfl, rfl⟩ | ⟨e1, e2, e3⟩
    · exact .inl ⟨rfl, rfl⟩
    · exact .inr ⟨q, by rw [Equiv.swap_apply_left]; exact hb, rfl, rfl, fun h => h⟩
    · exact .inr ⟨r, by rw [Equiv.swap_apply_of_ne_of_ne e1 e2]; exact e3, rfl, rfl, fun h => h⟩
  · rcases hget x r h1 with ⟨-, rfl⟩ | ⟨rfl, rfl⟩ | ⟨e1, e2, e3⟩
    · exact absurd h2 (by simp)
    · rcases G.ctx hc b q k hb h2 with e | e
      · exact .inl e
      · exact absurd e.1 (hC hc)
    · exact G.ctx hc x r k e3 h2
  · obtain ⟨x, r, e1, e2⟩ := G.owned hl id hid
    by_cases hx : x = a
    · subst hx
      rw [ha] at e1
      cases e1
      rw [hpk, hpm] at e2
      simp at e2
    · by_cases hx' : x = b
      · subst hx'
        rw [hb] at e1
        cases e1
        exact ⟨a, _, (Function.update_of_ne hab _ _).trans (Function.update_self _ _ _), e2⟩
      · exact ⟨x, r, by rw [Function.update_of_ne hx', Function.update_of_ne hx]; exact e1, e2⟩
  · rcases hget x r h1 with ⟨-, rfl⟩ | ⟨rfl, rfl⟩ | ⟨e1, e2, e3⟩
    · exact ⟨(G.nonlin hl b q hb).1, fun h => absurd rfl h⟩
    · exact ⟨(G.nonlin hl x p ha).1, (G.nonlin hl b q hb).2⟩
    · exact G.nonlin hl x r e3
  · rcases hget x r h1 with ⟨-, rfl⟩ | ⟨rfl, rfl⟩ | ⟨e1, e2, e3⟩
    · exact absurd h2 (by simp)
    · exact G.built hB b q m hb h2
    · exact G.built hB x r m e3 h2

/-- The end of the objects, and `reset`: the matrix of the solver itself need not be that of its unknown before. -/
theorem SolverGood.unknown (G : SolverGood C L B h objs) {a u : Nat} {o : SolverObj} (ha : objs a = some o) : SolverGood C L False h (Function.update objs a (some { o with unknown := some u })) := by
  refine ⟨G.inv.transfer id (fun _ _ e => e) fun x r hr => ?_, fun hc x r k h1 h2 => ?_, fun hl id hid => ?_, fun hl x r h1 => ?_, fun hB => hB.elim⟩
  · rcases get_update hr with ⟨rfl, e⟩ | ⟨-, e⟩
    · cases e
      exact .inr ⟨o, ha, rfl, rfl, fun h => h⟩
    · exact .inr ⟨r, e, rfl, rfl, fun h => h⟩
  · rcases get_update h1 with ⟨rfl, e⟩ | ⟨-, e⟩
    · cases e
      exact G.ctx hc x o k ha h2
    · exact G.ctx hc x r k e h2
  · obtain ⟨x, r, e1, e2⟩ := G.owned hl id hid
    by_cases hx : x = a
    · subst hx
      rw [ha] at e1
      cases e1
      exact ⟨x, _, Function.update_self _ _ _, e2⟩
    · exact ⟨x, r, by rw [Function.update_of_ne hx]; exact e1, e2⟩
  · rcases get_update h1 with ⟨rfl, e⟩ | ⟨-, e⟩
    · cases e
      exact G.nonlin hl x o ha
    · exact G.nonlin hl x r e

/-- One statement, a copy excepted. -/
theorem SolverGood.step {s : SolverState} (G : SolverGood C L B s.heap s.objs) (hsol : B → ∀ p ∈ s.solved, p.1 = p.2) (e : SolverEv) (hcopy : ¬ e.IsCopy)
    (hmove : C → e.IsMove → ∀ a o, s.objs a = some o → o.cls ≠ .nonlinear) (hL : L → ∀ c, e.Builds c → c = .nonlinear) (hB : B → ¬ e.ChangesUnknown) :
    match s.step e with
    | .error x => C → x ≠ .dangling
    | .ok s' => SolverGood C L B s'.heap s'.objs ∧ (B → ∀ p ∈ s'.solved, p.1 = p.2) := by
  cases e with
  | construct a c =>
    match ha : s.objs a with
    | some _ => simp [SolverState.step, ha]
    | none =>
      simp only [SolverState.step, ha]
      refine ⟨?_, hsol⟩
      have hc : ∀ o : SolverObj, o.mat = none → o.cls = c → SolverGood C L B (configureSolver s.heap o).1 (Function.update s.objs a (some (configureSolver s.heap o).2)) := fun o h1 h2 =>
        G.configured a o h1 fun hl => ⟨by rw [h2]; exact hL hl c rfl, fun p hp => by rw [ha] at hp; exact absurd hp (by simp)⟩
      cases c with
      | nonlinear => exact hc _ rfl rfl
      | linear =>
        have G1 := hc ⟨.linear, none, none, none, false⟩ rfl rfl
        have G2 := G1.configured a (configureSolver s.heap ⟨.linear, none, none, none, false⟩).2 rfl fun hl => absurd (hL hl .linear rfl) (by simp)
        rw [Function.update_idem] at G2
        exact G2
      | block =>
        have G1 := hc ⟨.block, none, none, none, false⟩ rfl rfl
        have G2 := G1.configured a (configureSolver s.heap ⟨.block, none, none, none, false⟩).2 rfl fun hl => absurd (hL hl .block rfl) (by simp)
        rw [Function.update_idem] at G2
        exact G2
  | setUnknown a u =>
    match ha : s.objs a with
    | none => simp [SolverState.step, ha]
    | some o =>
      simp only [SolverState.step, ha]
      have G1 := G.unknown (u := u) ha
      exact ⟨⟨G1.inv, G1.ctx, G1.owned, G1.nonlin, fun hb => absurd trivial (hB hb)⟩, hsol⟩
  | assemble a =>
    match ha : s.objs a with
    | none => simp [SolverState.step, ha]
    | some o =>
      simp only [SolverState.step, ha]
      by_cases hc : o.cls = .nonlinear
      · simp [hc]
      · rw [if_neg hc]
        unfold ensureMatrix
        match hm : o.mat, hu : o.unknown with
        | some m, _ =>
          refine ⟨?_, hsol⟩
          show SolverGood C L B s.heap (Function.update s.objs a (some o))
          rw [← ha, Function.update_eq_self]; exact G
        | none, none => simp
        | none, some u =>
          refine ⟨?_, hsol⟩
          refine G.matrix ha (fun k hk => ?_) (fun hl => absurd (G.nonlin hl a o ha).1 hc) o.setUp (fun hl => absurd (G.nonlin hl a o ha).1 hc) hu
          by_contra hcc
          obtain ⟨m, hm'⟩ := Option.ne_none_iff_exists'.1 hcc
          have := (G.inv.opsMat a o k m ha hk hm').1
          rw [hm] at this
          exact absurd this (by simp)
  | setup a =>
    match ha : s.objs a with
    | none => simp [SolverState.step, ha]
    | some o =>
      simp only [SolverState.step, ha]
      have := G.setup ha
      match hr : setupSolver s.heap o a with
      | .error x => rw [hr] at this; exact fun _ => this
      | .ok r => rw [hr] at this; exact ⟨this, hsol⟩
  | solve a =>
    match ha : s.objs a with
    | none => simp [SolverState.step, ha]
    | some o =>
      simp only [SolverState.step, ha]
      have G1 := G.setup ha
      match hr : setupSolver s.heap o a with
      | .error x => rw [hr] at G1; exact fun _ => G1
      | .ok r =>
        rw [hr] at G1
        have hself : (s.put a r).objs a = some r.2 := Function.update_self _ _ _
        simp only []
        unfold solveWith
        match hk : r.2.ksp with
        | none => simp
        | some k =>
          simp only []
          match hm : (s.put a r).heap.ops k with
          | none => simp
          | some m =>
            have hm' : r.1.ops k = some m := hm
            obtain ⟨e1, e2⟩ := G1.inv.opsMat a r.2 k m hself hk hm'
            have e3 := G1.inv.kspRef a r.2 k hself hk
            have hrefs : ¬ ((s.put a r).heap.refs k = 0 ∨ (s.put a r).heap.refs m = 0) := by
              show ¬ (r.1.refs k = 0 ∨ r.1.refs m = 0)
              rw [e2, e3]; simp
            simp only [if_neg hrefs]
            have hgood : SolverGood C L B (s.put a r).heap (s.put a r).objs ∧ (B → ∀ p ∈ (s.put a r).solved ++ [(r.2.unknown, (s.put a r).heap.built m)], p.1 = p.2) := by
              refine ⟨G1, fun hb p hp => ?_⟩
              rcases List.mem_append.1 hp with hp | hp
              · exact hsol hb p hp
              · rw [List.mem_singleton.1 hp]
                exact (G1.built hb a r.2 m hself e1).symm
            match hx : (s.put a r).heap.ctx k with
            | none => exact hgood
            | some c =>
              simp only []
              match hcx : (s.put a r).objs c with
              | some _ => exact hgood
              | none =>
                intro hC _
                rcases G1.ctx hC a r.2 k hself hk with h1 | h1
                · rw [show r.1.ctx k = some c from hx] at h1
                  exact absurd h1 (by simp)
                · have : some c = some a := hx.symm.trans h1.2
                  cases this
                  rw [hself] at hcx
                  exact absurd hcx (by simp)
  | reset a =>
    match ha : s.objs a with
    | none => simp [SolverState.step, ha]
    | some o =>
      obtain ⟨h', e1, e2, e3, e4, e5, e6, e7⟩ := G.inv.destroyed ha
      simp only [SolverState.step, ha, e1]
      refine ⟨?_, hsol⟩
      have G1 := G.drop ha e2 e3 e4 e5 e6 e7 (some { o with ksp := none, mat := none, setUp := false }) (fun p hp => by cases hp; exact ⟨rfl, rfl, rfl⟩)
      have G2 := G1.configured a { o with ksp := none, mat := none, setUp := false } rfl fun hl => ⟨(G.nonlin hl a o ha).1, fun p hp => by
        rw [Function.update_self] at hp; cases hp; exact ⟨rfl, rfl⟩⟩
      rw [Function.update_idem] at G2
      exact G2
  | move a b =>
    simp only [SolverState.step, assignSolver]
    match ha : s.objs a, hb : s.objs b with
    | none, _ => simp
    | some _, none => simp
    | some oa, some ob =>
      simp only []
      by_cases hc : oa.cls = ob.cls
      · rw [if_neg (not_not.2 hc)]
        by_cases hab : a = b
        · rw [if_pos hab]; exact ⟨G, hsol⟩
        · rw [if_neg hab]
          obtain ⟨h', e1, e2, e3, e4, e5, e6, e7⟩ := G.inv.destroyed ha
          simp only [e1]
          refine ⟨?_, hsol⟩
          have G1 := G.drop ha e2 e3 e4 e5 e6 e7 (some { oa with ksp := none, mat := none }) (fun p hp => by cases hp; exact ⟨rfl, rfl, rfl⟩)
          have G2 := G1.moved (Function.update_self _ _ _) (by rw [Function.update_of_ne (Ne.symm hab)]; exact hb) rfl rfl hab hc (fun hC => hmove hC trivial b ob hb)
          rw [Function.update_idem] at G2
          exact G2
      · rw [if_pos hc]; simp
  | copy a b => exact absurd trivial hcopy
  | destroy a =>
    match ha : s.objs a with
    | none => simp [SolverState.step, ha]
    | some o =>
      obtain ⟨h', e1, e2, e3, e4, e5, e6, e7⟩ := G.inv.destroyed ha
      simp only [SolverState.step, ha, e1]
      exact ⟨G.drop ha e2 e3 e4 e5 e6 e7 none (by simp), hsol⟩

/-- `a.set_unknown(u); a.reset();` -/
theorem SolverGood.newUnknown {s : SolverState} (G : SolverGood C L B s.heap s.objs) (hsol : B → ∀ p ∈ s.solved, p.1 = p.2) (a u : Nat) :
    match s.runs [.setUnknown a u, .reset a] with
    | .error x => x ≠ .dangling
    | .ok s' => SolverGood C L B s'.heap s'.objs ∧ (B → ∀ p ∈ s'.solved, p.1 = p.2) := by
  match ha : s.objs a with
  | none => simp [SolverState.runs, SolverState.step, ha]
  | some o =>
    obtain ⟨h', e1, e2, e3, e4, e5, e6, e7⟩ := (G.unknown (u := u) ha).inv.destroyed (Function.update_self _ _ _)
    simp only [SolverState.runs, SolverState.step, ha, SolverState.put, Function.update_self, e1]
    refine ⟨?_, hsol⟩
    have G1 := G.drop ha e2 e3 e4 e5 e6 e7 (some { o with unknown := some u, ksp := none, mat := none, setUp := false }) (fun p hp => by cases hp; exact ⟨rfl, rfl, rfl⟩)
    have G2 := G1.configured a { o with unknown := some u, ksp := none, mat := none, setUp := false } rfl fun hl => ⟨(G.nonlin hl a o ha).1, fun p hp => by
      rw [Function.update_self] at hp; cases hp; exact ⟨rfl, rfl⟩⟩
    rw [Function.update_idem] at G2
    rw [Function.update_idem]
    exact G2

theorem setupSolver_cls {o : SolverObj} {a : Nat} {r : PetscHeap × SolverObj} (hr : setupSolver h o a = .ok r) : r.2.cls = o.cls := by
  have hat : ∀ (h : PetscHeap) (p : SolverObj) (r : PetscHeap × SolverObj), attachMatrix h p a = .ok r → r.2.cls = p.cls := fun h p r hr => by
    unfold attachMatrix at hr
    split at hr
    · split at hr
      · exact absurd hr (by simp)
      · cases hr; rfl
    · exact absurd hr (by simp)
  unfold setupSolver at hr
  split at hr
  · cases hr; rfl
  · split at hr
    · split at hr
      · exact absurd hr (by simp)
      · rename_i h1 o1 hh
        rw [hat _ _ _ hr]
        unfold ensureMatrix at hh
        split at hh
        · cases hh; rfl
        · exact absurd hh (by simp)
        · cases hh; rfl
    · split at hr
      · exact absurd hr (by simp)
      · rename_i u _
        exact hat (makeMatrix h o u).1 (makeMatrix h o u).2 _ hr

theorem destroyPetsc_cls {o : SolverObj} {r : PetscHeap × SolverObj} (hr : destroyPetsc h o = .ok r) : r.2.cls = o.cls := by
  unfold destroyPetsc at hr
  split at hr
  · exact absurd hr (by simp)
  · split at hr
    · exact absurd hr (by simp)
    · cases hr; rfl

theorem solveWith_objs {s s' : SolverState} {o : SolverObj} (hs : solveWith s o = .ok s') : s'.objs = s.objs := by
  unfold solveWith at hs
  split at hs
  · exact absurd hs (by simp)
  · split at hs
    · exact absurd hs (by simp)
    · split at hs
      · exact absurd hs (by simp)
      · split at hs
        · cases hs; rfl
        · split at hs
          · exact absurd hs (by simp)
          · cases hs; rfl

/-- The class of a solver does not change. -/
theorem step_cls {s s' : SolverState} {e : SolverEv} (hs : s.step e = .ok s') {x : Nat} {p : SolverObj} (hx : s'.objs x = some p) : (∃ o, s.objs x = some o ∧ p.cls = o.cls) ∨ e.Builds p.cls := by
  have hput : ∀ (a : Nat) (r : PetscHeap × SolverObj) (o : SolverObj), s.objs a = some o → r.2.cls = o.cls → (s.put a r).objs x = some p → ∃ o, s.objs x = some o ∧ p.cls = o.cls := fun a r o h1 h2 h3 => by
    rcases get_update h3 with ⟨rfl, e⟩ | ⟨-, e⟩
    · cases e; exact ⟨o, h1, h2⟩
    · exact ⟨p, e, rfl⟩
  have hassign : ∀ (a b : Nat) (m : Bool), assignSolver s a b m = .ok s' → ∃ o, s.objs x = some o ∧ p.cls = o.cls := fun a b m h => by
    unfold assignSolver at h
    split at h
    · rename_i oa ob h1 h2
      split at h
      · exact absurd h (by simp)
      · split at h
        · cases h; exact ⟨p, hx, rfl⟩
        · split at h
          · exact absurd h (by simp)
          · rename_i hd
            have hcl := destroyPetsc_cls hd
            cases h
            cases m
            · exact hput a _ oa h1 (by simpa using hcl) hx
            · simp only [SolverState.put, if_true] at hx
              rcases get_update hx with ⟨rfl, e⟩ | ⟨-, e⟩
              · cases e; exact ⟨ob, h2, rfl⟩
              · rcases get_update e with ⟨e1, e2⟩ | ⟨-, e2⟩
                · rw [← Option.some.inj e2]; exact ⟨oa, e1 ▸ h1, hcl⟩
                · exact ⟨p, e2, rfl⟩
    · exact absurd h (by simp)
  cases e with
  | construct a c =>
    simp only [SolverState.step] at hs
    split at hs
    · exact absurd hs (by simp)
    · cases hs
      simp only [SolverState.put] at hx
      rcases get_update hx with ⟨-, e⟩ | ⟨-, e⟩
      · refine .inr ?_
        cases e
        cases c <;> rfl
      · exact .inl ⟨p, e, rfl⟩
  | setUnknown a u =>
    simp only [SolverState.step] at hs
    split at hs
    · exact absurd hs (by simp)
    · rename_i o ho
      cases hs
      exact .inl (hput a _ o ho rfl hx)
  | assemble a =>
    simp only [SolverState.step] at hs
    split at hs
    · exact absurd hs (by simp)
    · rename_i o ho
      split at hs
      · exact absurd hs (by simp)
      · split at hs
        · exact absurd hs (by simp)
        · rename_i r hr
          cases hs
          refine .inl (hput a r o ho ?_ hx)
          unfold ensureMatrix at hr
          split at hr
          · cases hr; rfl
          · exact absurd hr (by simp)
          · cases hr; rfl
  | setup a =>
    simp only [SolverState.step] at hs
    split at hs
    · exact absurd hs (by simp)
    · rename_i o ho
      split at hs
      · exact absurd hs (by simp)
      · rename_i r hr
        cases hs
        exact .inl (hput a r o ho (setupSolver_cls hr) hx)
  | solve a =>
    simp only [SolverState.step] at hs
    split at hs
    · exact absurd hs (by simp)
    · rename_i o ho
      split at hs
      · exact absurd hs (by simp)
      · rename_i r hr
        rw [solveWith_objs hs] at hx
        exact .inl (hput a r o ho (setupSolver_cls hr) hx)
  | reset a =>
    simp only [SolverState.step] at hs
    split at hs
    · exact absurd hs (by simp)
    · rename_i o ho
      split at hs
      · exact absurd hs (by simp)
      · rename_i hr
        cases hs
        have hcl := destroyPetsc_cls hr
        exact .inl (hput a (configureSolver _ _) o ho (by exact hcl) hx)
  | move a b => exact .inl (hassign a b true hs)
  | copy a b => exact .inl (hassign a b false hs)
  | destroy a =>
    simp only [SolverState.step] at hs
    split at hs
    · exact absurd hs (by simp)
    · split at hs
      · exact absurd hs (by simp)
      · cases hs
        rcases get_update hx with ⟨-, e⟩ | ⟨-, e⟩
        · exact absurd e (by simp)
        · exact .inl ⟨p, e, rfl⟩

/-- Programs without copies. -/
theorem SolverGood.runs (es : List SolverEv) (hcopy : ∀ e ∈ es, ¬ e.IsCopy) (hmove : C → (∀ e ∈ es, ¬ e.IsMove) ∨ ∀ e ∈ es, ¬ e.Builds .nonlinear) (hL : L → ∀ e ∈ es, ∀ c, e.Builds c → c = .nonlinear) :
    ∀ {s : SolverState}, SolverGood C L False s.heap s.objs → (C → (∀ e ∈ es, ¬ e.IsMove) ∨ ∀ a o, s.objs a = some o → o.cls ≠ .nonlinear) →
    match s.runs es with
    | .error x => C → x ≠ .dangling
    | .ok s' => SolverGood C L False s'.heap s'.objs := by
  induction es with
  | nil => intro s G _; exact G
  | cons e es ih =>
    intro s G hn
    have h1 := G.step (fun h => h.elim) e (hcopy e (List.mem_cons_self ..))
      (fun hC hm => (hn hC).elim (fun h => absurd hm (h e (List.mem_cons_self ..))) id) (fun hl => hL hl e (List.mem_cons_self ..)) (fun h => h.elim)
    unfold SolverState.runs
    match hs : s.step e with
    | .error x => rw [hs] at h1; exact h1
    | .ok s' =>
      rw [hs] at h1
      refine ih (fun e' he' => hcopy e' (List.mem_cons_of_mem _ he')) (fun hC => (hmove hC).imp (fun h e' he' => h e' (List.mem_cons_of_mem _ he')) (fun h e' he' => h e' (List.mem_cons_of_mem _ he')))
        (fun hl e' he' => hL hl e' (List.mem_cons_of_mem _ he')) h1.1 (fun hC => ?_)
      rcases hmove hC with h | h
      · exact .inl fun e' he' => h e' (List.mem_cons_of_mem _ he')
      · rcases hn hC with h' | h'
        · exact .inl fun e' he' => h' e' (List.mem_cons_of_mem _ he')
        · refine .inr fun a o ha hc => ?_
          rcases step_cls hs ha with ⟨p, e1, e2⟩ | e1
          · exact h' a p e1 (e2 ▸ hc)
          · exact h e (List.mem_cons_self ..) (hc ▸ e1)

theorem runs_append (s : SolverState) (es fs : List SolverEv) : s.runs (es ++ fs) = match s.runs es with
    | .error x => .error x
    | .ok s' => s'.runs fs := by
  induction es generalizing s with
  | nil => rfl
  | cons e es ih =>
    simp only [List.cons_append, SolverState.runs]
    match s.step e with
    | .error _ => rfl
    | .ok s' => exact ih s'

/-- Careful programs. -/
theorem SolverGood.careful (es : List CarefulEv) : ∀ {s : SolverState}, SolverGood False False True s.heap s.objs → (∀ p ∈ s.solved, p.1 = p.2) →
    ∀ s', s.runs (es.flatMap CarefulEv.events) = .ok s' → ∀ p ∈ s'.solved, p.1 = p.2 := by
  induction es with
  | nil => intro s _ hs s' h; cases h; exact hs
  | cons e es ih =>
    intro s G hs s' h
    rw [List.flatMap_cons, runs_append] at h
    have key : match s.runs e.events with
        | .error _ => True
        | .ok s' => SolverGood False False True s'.heap s'.objs ∧ (True → ∀ p ∈ s'.solved, p.1 = p.2) := by
      have one : ∀ e' : SolverEv, ¬ e'.IsCopy → ¬ e'.ChangesUnknown → match s.runs [e'] with
          | .error _ => True
          | .ok s' => SolverGood False False True s'.heap s'.objs ∧ (True → ∀ p ∈ s'.solved, p.1 = p.2) := fun e' h1 h2 => by
        have := G.step (fun _ => hs) e' h1 (fun h => h.elim) (fun h => h.elim) (fun _ => h2)
        simp only [SolverState.runs]
        match hr : s.step e' with
        | .error _ => trivial
        | .ok s1 => rw [hr] at this; exact this
      cases e with
      | newUnknown a u =>
        have := G.newUnknown (fun _ => hs) a u
        show match s.runs [.setUnknown a u, .reset a] with
          | .error _ => True
          | .ok s' => _
        match hr : s.runs [.setUnknown a u, .reset a] with
        | .error _ => trivial
        | .ok s1 => rw [hr] at this; exact this
      | construct a c => exact one _ (fun h => h) (fun h => h)
      | setup a => exact one _ (fun h => h) (fun h => h)
      | solve a => exact one _ (fun h => h) (fun h => h)
      | reset a => exact one _ (fun h => h) (fun h => h)
      | move a b => exact one _ (fun h => h) (fun h => h)
      | destroy a => exact one _ (fun h => h) (fun h => h)
    match hr : s.runs e.events with
    | .error _ => rw [hr] at h; exact absurd h (by simp)
    | .ok s1 =>
      rw [hr] at h key
      exact ih key.1 (key.2 trivial) s' h

end Samurai
