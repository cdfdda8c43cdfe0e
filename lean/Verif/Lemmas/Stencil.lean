/-
Lemmas on the stencils.
-/
import Verif.Model.Stencil
import Verif.Spec.Stencil
import Mathlib.LinearAlgebra.Matrix.SchurComplement
import Mathlib.Algebra.Module.Pi
import Mathlib.Tactic.LinearCombination
import Mathlib.Tactic.Ring
import Mathlib.Tactic.FinCases

namespace Samurai

theorem findDirFrom_spec {dir : Nat → Int} : ∀ (k i d : Nat), i ≤ d → d < i + k → dir d ≠ 0 → (∀ j, i ≤ j → j < i + k → j ≠ d → dir j = 0) → findDirFrom dir k i = d := by
  intro k
  induction k with
  | zero => intro i d h1 h2; omega
  | succ k ih =>
    intro i d h1 h2 h3 h4
    unfold findDirFrom
    by_cases hi : i = d
    · subst hi
      rw [if_pos h3]
    · rw [if_neg (by rw [ne_eq, not_not]; exact h4 i (by omega) (by omega) hi)]
      exact ih (i + 1) d (by omega) (by omega) h3 fun j a b => h4 j (by omega) (by omega)

theorem findDirectionIndex_axis {n d : Nat} {s : Int} {dir : Nat → Int} (hd : d ≤ n) (hs : s ≠ 0) (h : ∀ k ≤ n, dir k = axis d s k) : findDirectionIndex n dir = d := by
  refine findDirFrom_spec (n + 1) 0 d (by omega) (by omega) ?_ fun j _ hj hne => ?_
  · rw [h d hd]; unfold axis; rwa [if_pos rfl]
  · rw [h j (by omega)]; unfold axis; rw [if_neg hne]

/-- The rotation in the plane of the coordinates 0 and `d` as a linear map. -/
def rotL (cos sin : Int) (d : Nat) : (Nat → Int) →ₗ[Int] (Nat → Int) where
  toFun := rotateVec cos sin d
  map_add' := by
    intro v w
    funext k
    unfold rotateVec
    simp only [Pi.add_apply]
    split
    · ring
    · split
      · ring
      · rfl
  map_smul' := by
    intro c v
    funext k
    unfold rotateVec
    simp only [Pi.smul_apply, smul_eq_mul, RingHom.id_apply]
    split
    · ring
    · split
      · ring
      · rfl

theorem rot_dot {n d : Nat} {cos sin : Int} (h : cos * cos + sin * sin = 1) (h0 : d ≠ 0) (hd : d ≤ n) (v w : Nat → Int) :
    dot n (rotateVec cos sin d v) (rotateVec cos sin d w) = dot n v w := by
  unfold dot
  have h1 : d ∈ Finset.range (n + 1) := Finset.mem_range.2 (by omega)
  have h2 : 0 ∈ (Finset.range (n + 1)).erase d := Finset.mem_erase.2 ⟨fun h => h0 h.symm, Finset.mem_range.2 (by omega)⟩
  rw [← Finset.add_sum_erase _ _ h1, ← Finset.add_sum_erase _ _ h2, ← Finset.add_sum_erase _ (fun k => v k * w k) h1, ← Finset.add_sum_erase _ (fun k => v k * w k) h2]
  have e : ∀ k ∈ ((Finset.range (n + 1)).erase d).erase 0, rotateVec cos sin d v k * rotateVec cos sin d w k = v k * w k := by
    intro k hk
    rw [Finset.mem_erase, Finset.mem_erase] at hk
    unfold rotateVec
    rw [if_neg hk.2.1, if_neg hk.1, if_neg hk.2.1, if_neg hk.1]
  rw [Finset.sum_congr rfl e]
  have a1 : ∀ v : Nat → Int, rotateVec cos sin d v d = sin * v 0 + cos * v d := fun v => if_pos rfl
  have a2 : ∀ v : Nat → Int, rotateVec cos sin d v 0 = cos * v 0 - sin * v d := fun v => by
    unfold rotateVec
    rw [if_neg fun h => h0 h.symm, if_pos rfl]
  rw [a1, a1, a2, a2]
  linear_combination (v 0 * w 0 + v d * w d) * h

theorem rot_det {n d : Nat} {cos sin : Int} (h : cos * cos + sin * sin = 1) (h0 : d ≠ 0) (hd : d ≤ n) :
    (Matrix.of fun i j : Fin (n + 1) => rotateVec cos sin d (unitDir j) i).det = 1 := by
  let A : Matrix (Fin (n + 1)) (Fin 2) Int := Matrix.of fun i j => if j = 0 then unitDir 0 i else unitDir d i
  let B : Matrix (Fin 2) (Fin (n + 1)) Int := Matrix.of fun i j =>
    if i = 0 then (cos - 1) * unitDir 0 j - sin * unitDir d j else sin * unitDir 0 j + (cos - 1) * unitDir d j
  have e : (Matrix.of fun i j : Fin (n + 1) => rotateVec cos sin d (unitDir j) i) = 1 + A * B := by
    ext i j
    rw [Matrix.add_apply, Matrix.mul_apply, Fin.sum_univ_two]
    simp only [A, B, Matrix.of_apply, if_true, Fin.isValue, one_ne_zero, if_false, Matrix.one_apply]
    unfold rotateVec unitDir
    have hij : i = j ↔ (i : Nat) = j := Fin.ext_iff
    simp only [hij]
    by_cases a1 : (i : Nat) = d
    · by_cases a2 : (j : Nat) = 0
      · rw [a1, a2]; simp [h0, h0.symm]
      · by_cases a3 : (j : Nat) = d
        · rw [a1, a3]; simp [h0, h0.symm]
        · rw [a1]; simp [h0, h0.symm, a2, a3, Ne.symm a2, Ne.symm a3]
    · by_cases b1 : (i : Nat) = 0
      · by_cases a2 : (j : Nat) = 0
        · rw [b1, a2]; simp [h0, h0.symm]
        · by_cases a3 : (j : Nat) = d
          · rw [b1, a3]; simp [h0, h0.symm]
          · rw [b1]; simp [h0, h0.symm, a2, a3, Ne.symm a2, Ne.symm a3]
      · have b2 : i ≠ 0 := fun h => b1 (by rw [h]; rfl)
        by_cases hh : (i : Nat) = j
        · simp [a1, b2, hh.symm]
        · simp [a1, b2, hh]
  rw [e, Matrix.det_one_add_mul_comm, Matrix.det_fin_two]
  have key : ∀ (f : Fin (n + 1) → Int) (k : Nat) (hk : k < n + 1), ∑ j : Fin (n + 1), f j * unitDir k j = f ⟨k, hk⟩ := by
    intro f k hk
    rw [Finset.sum_eq_single (⟨k, hk⟩ : Fin (n + 1))]
    · unfold unitDir; rw [if_pos rfl, mul_one]
    · intro b _ hb
      unfold unitDir
      rw [if_neg fun h => hb (Fin.ext h), mul_zero]
    · intro h; exact absurd (Finset.mem_univ _) h
  have u0 : unitDir 0 0 = 1 := rfl
  have u1 : unitDir d 0 = 0 := if_neg fun h => h0 h.symm
  have u2 : unitDir d d = 1 := if_pos rfl
  have u3 : unitDir 0 d = 0 := if_neg h0
  simp only [Matrix.add_apply, Matrix.mul_apply, Matrix.one_apply_eq, ne_eq, zero_ne_one, not_false_eq_true, Matrix.one_apply_ne, one_ne_zero]
  simp only [A, B, Matrix.of_apply, if_true, Fin.isValue, one_ne_zero, if_false]
  rw [key _ 0 (by omega), key _ d (by omega), key _ d (by omega), key _ 0 (by omega)]
  simp only [u0, u1, u2, u3]
  linear_combination h

theorem rot_bound {d : Nat} {cos sin : Int} (h : (cos = 0 ∧ (sin = 1 ∨ sin = -1)) ∨ (sin = 0 ∧ (cos = 1 ∨ cos = -1))) {v : Nat → Int} {n w : Nat} (hd : d ≤ n)
    (hv : ∀ k ≤ n, - (w : Int) ≤ v k ∧ v k ≤ w) : ∀ k ≤ n, - (w : Int) ≤ rotateVec cos sin d v k ∧ rotateVec cos sin d v k ≤ w := by
  intro k hk
  have h1 := hv 0 (by omega)
  have h2 := hv d hd
  unfold rotateVec
  split
  · rcases h with ⟨rfl, rfl | rfl⟩ | ⟨rfl, rfl | rfl⟩ <;> constructor <;> omega
  · split
    · rcases h with ⟨rfl, rfl | rfl⟩ | ⟨rfl, rfl | rfl⟩ <;> constructor <;> omega
    · exact hv k hk

/-- The conversion applies one of two linear maps: the product by `±1` in dimension 1, a quarter or half turn (or the identity) otherwise. -/
theorem convert_cases {n : Nat} {dir : Nat → Int} (h : Cartesian n dir) :
    (n = 0 ∧ (dir 0 = 1 ∨ dir 0 = -1) ∧ ∀ S, convertForDirection n S dir = S.map fun v => fun k => dir 0 * v k) ∨
    ∃ d cos sin, d ≠ 0 ∧ d ≤ n ∧ ((cos = 0 ∧ (sin = 1 ∨ sin = -1)) ∨ (sin = 0 ∧ (cos = 1 ∨ cos = -1))) ∧
      (∀ k ≤ n, dir k = if k = d then sin else if k = 0 then cos else 0) ∧ ∀ S, convertForDirection n S dir = S.map (rotateVec cos sin d) := by
  obtain ⟨d, hd, s, hs, h⟩ := h
  by_cases hn : n = 0
  · left
    subst hn
    obtain rfl : d = 0 := by omega
    have h0 := h 0 (by omega)
    refine ⟨rfl, ?_, fun S => ?_⟩
    · rw [h0]; exact hs
    · unfold convertForDirection; rw [if_pos rfl]
  · right
    have hi := findDirectionIndex_axis hd (by omega) h
    by_cases h0 : d = 0
    · subst h0
      refine ⟨1, s, 0, by omega, by omega, Or.inr ⟨rfl, hs⟩, fun k hk => ?_, fun S => ?_⟩
      · rw [h k hk]; unfold axis
        by_cases k0 : k = 0
        · subst k0; simp
        · simp [k0]
      · unfold convertForDirection
        simp only [if_neg hn, hi, if_true, Nat.zero_add]
        rw [h 0 (by omega), h 1 (by omega)]
        rfl
    · refine ⟨d, 0, s, h0, hd, Or.inl ⟨rfl, hs⟩, fun k hk => ?_, fun S => ?_⟩
      · rw [h k hk]; unfold axis
        simp
      · unfold convertForDirection
        simp only [if_neg hn, hi, if_neg h0]
        rw [h 0 (by omega), h d hd]
        unfold axis
        rw [if_neg fun h => h0 h.symm, if_pos rfl]

theorem axis_vec {n d : Nat} {k : Int} (hd : d ≤ n) : axis d k = vec ((List.range (n + 1)).map (axis d k)) := by
  funext i
  unfold vec
  rw [List.getD_eq_getElem?_getD]
  by_cases hi : i < n + 1
  · rw [List.getElem?_map, List.getElem?_range hi]; rfl
  · rw [List.getElem?_eq_none (by simpa using hi)]
    show axis d k i = 0
    unfold axis
    rw [if_neg (by omega)]

theorem vec_zero (n : Nat) : vec (List.replicate n 0) = fun _ => 0 := by
  funext i
  unfold vec
  rw [List.getD_eq_getElem?_getD, List.getElem?_replicate]
  split <;> rfl

theorem vec_scale (c : Int) (l : List Int) : (fun k => c * vec l k) = vec (l.map (c * ·)) := by
  funext i
  unfold vec
  rw [List.getD_eq_getElem?_getD, List.getD_eq_getElem?_getD, List.getElem?_map]
  cases l[i]? with
  | none => simp
  | some a => rfl

/-- The coordinates of the vectors of a star. -/
def starList (n w : Nat) : List (List Int) :=
  List.replicate (n + 1) 0 :: (List.range (n + 1)).flatMap fun d => (List.range w).flatMap fun i : Nat =>
    [(List.range (n + 1)).map (axis d (- ((i : Int) + 1))), (List.range (n + 1)).map (axis d ((i : Int) + 1))]

theorem starList_length (n w : Nat) : (starList n w).length = 1 + 2 * (n + 1) * w := by
  unfold starList
  rw [List.length_cons, List.length_flatMap]
  have : ∀ m : Nat, (List.map (fun d => ((List.range w).flatMap fun i : Nat =>
    [(List.range (n + 1)).map (axis d (- ((i : Int) + 1))), (List.range (n + 1)).map (axis d ((i : Int) + 1))]).length) (List.range m)).sum = 2 * m * w := by
    intro m
    induction m with
    | zero => simp
    | succ m ih =>
      rw [List.range_succ (n := m), List.map_append, List.sum_append, ih]
      simp only [List.map_cons, List.map_nil, List.sum_cons, List.sum_nil, List.length_flatMap, List.length_cons, List.length_nil, List.map_const', List.length_range, List.sum_replicate, smul_eq_mul]
      ring
  rw [this]
  ring

theorem mem_starList {n w : Nat} {v : Nat → Int} :
    v ∈ (starList n w).map vec ↔ v = (fun _ => 0) ∨ ∃ d ≤ n, ∃ k : Int, k ≠ 0 ∧ - (w : Int) ≤ k ∧ k ≤ w ∧ v = axis d k := by
  unfold starList
  rw [List.map_cons, List.mem_cons, vec_zero]
  refine or_congr Iff.rfl ?_
  simp only [List.mem_map, List.mem_flatMap, List.mem_range, List.mem_cons, List.not_mem_nil, or_false]
  constructor
  · rintro ⟨l, ⟨d, hd, i, hi, rfl | rfl⟩, rfl⟩
    · exact ⟨d, by omega, - ((i : Int) + 1), by omega, by omega, by omega, (axis_vec (by omega)).symm⟩
    · exact ⟨d, by omega, (i : Int) + 1, by omega, by omega, by omega, (axis_vec (by omega)).symm⟩
  · rintro ⟨d, hd, k, h0, h1, h2, rfl⟩
    refine ⟨(List.range (n + 1)).map (axis d k), ⟨d, by omega, k.natAbs - 1, by omega, ?_⟩, (axis_vec hd).symm⟩
    by_cases hk : 0 < k
    · right; rw [show ((k.natAbs - 1 : Nat) : Int) + 1 = k by omega]
    · left; rw [show - (((k.natAbs - 1 : Nat) : Int) + 1) = k by omega]

/-- The coordinates of the Cartesian directions. -/
def dirList (n : Nat) : List (List Int) :=
  (List.range (n + 1)).flatMap fun d => [(List.range (n + 1)).map (axis d (-1)), (List.range (n + 1)).map (axis d 1)]

theorem mem_dirList {n : Nat} {v : Nat → Int} : v ∈ (dirList n).map vec ↔ ∃ d ≤ n, v = axis d 1 ∨ v = axis d (-1) := by
  unfold dirList
  simp only [List.mem_map, List.mem_flatMap, List.mem_range, List.mem_cons, List.not_mem_nil, or_false]
  constructor
  · rintro ⟨l, ⟨d, hd, rfl | rfl⟩, rfl⟩
    · exact ⟨d, by omega, Or.inr (axis_vec (by omega)).symm⟩
    · exact ⟨d, by omega, Or.inl (axis_vec (by omega)).symm⟩
  · rintro ⟨d, hd, rfl | rfl⟩
    · exact ⟨_, ⟨d, by omega, Or.inr rfl⟩, (axis_vec hd).symm⟩
    · exact ⟨_, ⟨d, by omega, Or.inl rfl⟩, (axis_vec hd).symm⟩

theorem isLineVec_some (s : Nat → Int) (a : Nat) : ∀ k d : Nat,
    ((∀ b, d ≤ b → b < d + k → s b ≠ 0 → b = a) → isLineVec s k d (some a) = some (some a)) ∧
    (∀ b, d ≤ b → b < d + k → s b ≠ 0 → b ≠ a → isLineVec s k d (some a) = none) := by
  intro k
  induction k with
  | zero => intro d; exact ⟨fun _ => rfl, fun b h1 h2 => by omega⟩
  | succ k ih =>
    intro d
    obtain ⟨i1, i2⟩ := ih (d + 1)
    constructor
    · intro h
      unfold isLineVec
      split
      · rename_i hs
        have := h d (by omega) (by omega) hs
        simp only [this, ne_eq, not_true_eq_false, if_false]
        rw [← this]
        rw [← this] at i1
        exact i1 fun b h1 h2 h3 => by rw [this]; exact h b (by omega) (by omega) h3
      · exact i1 fun b h1 h2 h3 => h b (by omega) (by omega) h3
    · intro b h1 h2 h3 h4
      unfold isLineVec
      by_cases hb : b = d
      · subst hb
        simp only [if_pos h3]
        rw [if_pos (Ne.symm h4)]
      · have r := i2 b (by omega) (by omega) h3 h4
        simp only [r]
        split <;> simp

theorem isLineVec_none (s : Nat → Int) : ∀ k d : Nat,
    ((∀ b, d ≤ b → b < d + k → s b = 0) → isLineVec s k d none = some none) ∧
    (∀ a, d ≤ a → a < d + k → s a ≠ 0 → (∀ b, d ≤ b → b < d + k → s b ≠ 0 → b = a) → isLineVec s k d none = some (some a)) ∧
    (∀ a b, d ≤ a → a < d + k → s a ≠ 0 → d ≤ b → b < d + k → s b ≠ 0 → a ≠ b → isLineVec s k d none = none) := by
  intro k
  induction k with
  | zero => intro d; exact ⟨fun _ => rfl, fun a h1 h2 => by omega, fun a b h1 h2 => by omega⟩
  | succ k ih =>
    intro d
    obtain ⟨i1, i2, i3⟩ := ih (d + 1)
    obtain ⟨j1, j2⟩ := isLineVec_some s d k (d + 1)
    refine ⟨fun h => ?_, fun a h1 h2 h3 h4 => ?_, fun a b h1 h2 h3 h4 h5 h6 h7 => ?_⟩
    · unfold isLineVec
      rw [if_neg (by rw [ne_eq, not_not]; exact h d (by omega) (by omega))]
      exact i1 fun b x y => h b (by omega) (by omega)
    · unfold isLineVec
      by_cases hd : s d ≠ 0
      · rw [if_pos hd]
        have := h4 d (by omega) (by omega) hd
        subst this
        exact j1 fun b x y z => h4 b (by omega) (by omega) z
      · rw [if_neg hd]
        have : a ≠ d := fun h => hd (h ▸ h3)
        exact i2 a (by omega) (by omega) h3 fun b x y z => h4 b (by omega) (by omega) z
    · unfold isLineVec
      by_cases hd : s d ≠ 0
      · rw [if_pos hd]
        by_cases ha : a = d
        · exact j2 b (by omega) (by omega) h6 (by omega)
        · exact j2 a (by omega) (by omega) h3 (by omega)
      · rw [if_neg hd]
        have ha : a ≠ d := fun h => hd (h ▸ h3)
        have hb : b ≠ d := fun h => hd (h ▸ h6)
        exact i3 a b (by omega) (by omega) h3 (by omega) (by omega) h6 h7

theorem isLineLoop_some (n a : Nat) (ha : a ≤ n) : ∀ S : List (Nat → Int), isLineLoop n S (some a) = true ↔ ∀ s ∈ S, ∀ k ≤ n, s k ≠ 0 → k = a := by
  intro S
  induction S with
  | nil => exact ⟨fun _ s hs => absurd hs List.not_mem_nil, fun _ => rfl⟩
  | cons s S ih =>
    obtain ⟨i1, i2⟩ := isLineVec_some s a (n + 1) 0
    by_cases h : ∀ b, 0 ≤ b → b < 0 + (n + 1) → s b ≠ 0 → b = a
    · unfold isLineLoop
      simp only [i1 h]
      rw [ih]
      constructor
      · intro h' t ht
        rcases List.mem_cons.1 ht with rfl | ht
        · exact fun k hk => h k (by omega) (by omega)
        · exact h' t ht
      · exact fun h' t ht => h' t (List.mem_cons_of_mem _ ht)
    · push Not at h
      obtain ⟨b, h1, h2, h3, h4⟩ := h
      unfold isLineLoop
      simp only [i2 b h1 h2 h3 h4]
      constructor
      · intro h; cases h
      · intro h; exact absurd (h s List.mem_cons_self b (by omega) h3) h4

theorem isLineLoop_none (n : Nat) : ∀ S : List (Nat → Int), isLineLoop n S none = true ↔ ∃ d ≤ n, ∀ s ∈ S, ∀ k ≤ n, s k ≠ 0 → k = d := by
  intro S
  induction S with
  | nil => exact ⟨fun _ => ⟨0, by omega, fun s hs => absurd hs List.not_mem_nil⟩, fun _ => rfl⟩
  | cons s S ih =>
    obtain ⟨i1, i2, i3⟩ := isLineVec_none s (n + 1) 0
    by_cases h : ∀ b, 0 ≤ b → b < 0 + (n + 1) → s b = 0
    · unfold isLineLoop
      simp only [i1 h]
      rw [ih]
      refine exists_congr fun d => and_congr_right fun hd => ⟨fun h' t ht => ?_, fun h' t ht => h' t (List.mem_cons_of_mem _ ht)⟩
      rcases List.mem_cons.1 ht with rfl | ht
      · exact fun k hk hs => absurd (h k (by omega) (by omega)) hs
      · exact h' t ht
    · push Not at h
      obtain ⟨a, h1, h2, h3⟩ := h
      by_cases h4 : ∀ b, 0 ≤ b → b < 0 + (n + 1) → s b ≠ 0 → b = a
      · unfold isLineLoop
        simp only [i2 a h1 h2 h3 h4]
        rw [isLineLoop_some n a (by omega)]
        constructor
        · intro h
          refine ⟨a, by omega, fun t ht => ?_⟩
          rcases List.mem_cons.1 ht with rfl | ht
          · exact fun k hk => h4 k (by omega) (by omega)
          · exact h t ht
        · rintro ⟨d, hd, h⟩ t ht
          have := h s List.mem_cons_self a (by omega) h3
          subst this
          exact h t (List.mem_cons_of_mem _ ht)
      · push Not at h4
        obtain ⟨b, h5, h6, h7, h8⟩ := h4
        unfold isLineLoop
        simp only [i3 a b h1 h2 h3 h5 h6 h7 (Ne.symm h8)]
        constructor
        · intro h; cases h
        · rintro ⟨d, hd, h⟩
          exact absurd ((h s List.mem_cons_self b (by omega) h7).trans (h s List.mem_cons_self a (by omega) h3).symm) h8

/-- The coordinates of the vectors of a directional stencil. -/
def dirStencilList (w : Nat) (l : List Int) : List (List Int) :=
  List.replicate l.length 0 :: ((List.range w).map fun i : Nat => l.map (- ((i : Int) + 1) * ·)) ++ (List.range w).map fun i : Nat => l.map (((i : Int) + 1) * ·)

theorem dirStencilList_vec (w : Nat) (l : List Int) : (dirStencilList w l).map vec =
    (fun _ => 0) :: ((List.range w).map fun i : Nat => fun k => - ((i : Int) + 1) * vec l k) ++ (List.range w).map fun i : Nat => fun k => ((i : Int) + 1) * vec l k := by
  unfold dirStencilList
  rw [List.map_append, List.map_cons, vec_zero, List.map_map, List.map_map]
  congr 1
  · congr 1
    exact List.map_congr_left fun i _ => (vec_scale _ l).symm
  · exact List.map_congr_left fun i _ => (vec_scale _ l).symm

end Samurai
