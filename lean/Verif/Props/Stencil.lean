/-
C45: the conversion of a stencil to a direction is a rotation. C52: star and line stencils, directions.
-/
import Verif.Lemmas.Stencil

namespace Samurai

/-! ### C45 -/

/-- C45. For every Cartesian direction, the conversion applies one linear map to all the vectors of the stencil. This map sends the x-axis
to the direction, preserves scalar products (so lengths and angles) and, from dimension 2 on, the orientation: it is a rotation. -/
theorem C45_rotation (n : Nat) (dir : Nat → Int) (hdir : Cartesian n dir) :
    ∃ R : (Nat → Int) →ₗ[Int] (Nat → Int), (∀ S, convertForDirection n S dir = S.map R) ∧ (∀ k ≤ n, R (unitDir 0) k = dir k) ∧
      (∀ v w, dot n (R v) (R w) = dot n v w) ∧ (1 ≤ n → (Matrix.of fun i j : Fin (n + 1) => R (unitDir j) i).det = 1) := by
  rcases convert_cases hdir with ⟨rfl, h1, h2⟩ | ⟨d, cos, sin, h0, hd, hc, h1, h2⟩
  · refine ⟨dir 0 • LinearMap.id, h2, fun k hk => ?_, fun v w => ?_, fun h => by omega⟩
    · obtain rfl : k = 0 := by omega
      show dir 0 * 1 = _
      rw [mul_one]
    · show dot 0 (fun k => dir 0 * v k) (fun k => dir 0 * w k) = _
      unfold dot
      rw [Finset.sum_range_one, Finset.sum_range_one]
      rcases h1 with h1 | h1 <;> rw [h1] <;> ring
  · have hcs : cos * cos + sin * sin = 1 := by rcases hc with ⟨rfl, rfl | rfl⟩ | ⟨rfl, rfl | rfl⟩ <;> norm_num
    refine ⟨rotL cos sin d, h2, fun k hk => ?_, rot_dot hcs h0 hd, fun _ => rot_det hcs h0 hd⟩
    show rotateVec cos sin d (unitDir 0) k = _
    rw [h1 k hk]
    unfold rotateVec unitDir
    rw [if_pos rfl, if_neg h0]
    split
    · ring
    · split
      · ring
      · rfl

example : Cartesian 2 (axis 1 (-1)) ∧ (convertForDirection 2 [vec [0, 0, 0], vec [2, 1, 5]] (axis 1 (-1))).map (fun v => [v 0, v 1, v 2]) = [[0, 0, 0], [1, -2, 5]] :=
  ⟨⟨1, by omega, -1, Or.inr rfl, fun _ _ => rfl⟩, by decide +kernel⟩

/-- C45. A stencil that suits the interfaces of the x-axis (it holds both cells and is within `w` of both) is converted to a stencil that
suits those of the direction: the hypothesis on stencils of C64 and C65 is met by the converted stencils. -/
theorem C45_stencil (n w : Nat) (S : List (Nat → Int)) (dir : Nat → Int) (hdir : Cartesian n dir) (hS : StencilOK n w (unitDir 0) S) :
    StencilOK n w dir (convertForDirection n S dir) ∧ (convertForDirection n S dir).length = S.length := by
  refine ⟨?_, ?_⟩
  swap
  · obtain ⟨R, h, -⟩ := C45_rotation n dir hdir
    rw [h, List.length_map]
  obtain ⟨⟨a, ha, ha'⟩, ⟨b, hb, hb'⟩, hw⟩ := hS
  rcases convert_cases hdir with ⟨rfl, h1, h2⟩ | ⟨d, cos, sin, h0, hd, hc, h1, h2⟩
  · rw [h2]
    refine ⟨⟨_, List.mem_map.2 ⟨a, ha, rfl⟩, fun k hk => ?_⟩, ⟨_, List.mem_map.2 ⟨b, hb, rfl⟩, fun k hk => ?_⟩, fun s hs k hk => ?_⟩
    · show dir 0 * a k = 0
      rw [ha' k hk, mul_zero]
    · show dir 0 * b k = _
      obtain rfl : k = 0 := by omega
      rw [hb' 0 hk]
      show dir 0 * 1 = _
      rw [mul_one]
    · obtain ⟨v, hv, rfl⟩ := List.mem_map.1 hs
      obtain rfl : k = 0 := by omega
      have := hw v hv 0 hk
      rw [show unitDir 0 0 = 1 from rfl] at this
      show - (w : Int) ≤ dir 0 * v 0 ∧ dir 0 * v 0 ≤ w ∧ - (w : Int) ≤ dir 0 * v 0 - dir 0 ∧ dir 0 * v 0 - dir 0 ≤ w
      rcases h1 with h1 | h1 <;> rw [h1] <;> omega
  · rw [h2]
    refine ⟨⟨_, List.mem_map.2 ⟨a, ha, rfl⟩, fun k hk => ?_⟩, ⟨_, List.mem_map.2 ⟨b, hb, rfl⟩, fun k hk => ?_⟩, fun s hs k hk => ?_⟩
    · unfold rotateVec
      rw [ha' 0 (by omega), ha' d hd, ha' k hk]
      simp
    · unfold rotateVec
      rw [hb' 0 (by omega), hb' d hd, hb' k hk, h1 k hk]
      unfold unitDir
      rw [if_pos rfl, if_neg h0]
      split
      · ring
      · split
        · ring
        · rfl
    · obtain ⟨v, hv, rfl⟩ := List.mem_map.1 hs
      have b1 := rot_bound hc hd (fun k hk => ⟨(hw v hv k hk).1, (hw v hv k hk).2.1⟩) k hk
      have b2 := rot_bound hc hd (v := fun k => v k - unitDir 0 k) (fun k hk => (hw v hv k hk).2.2) k hk
      have e : rotateVec cos sin d (fun k => v k - unitDir 0 k) k = rotateVec cos sin d v k - dir k := by
        rw [h1 k hk]
        unfold rotateVec unitDir
        simp only [if_true, if_neg h0]
        split
        · ring
        · split
          · ring
          · ring
      rw [e] at b2
      exact ⟨b1.1, b1.2, b2.1, b2.2⟩

example : StencilOK 1 2 (axis 1 (-1)) (convertForDirection 1 (lineStencil 0 4) (axis 1 (-1))) := by
  refine (C45_stencil 1 2 _ _ ⟨1, by omega, -1, Or.inr rfl, fun _ _ => rfl⟩ ⟨?_, ?_, ?_⟩).1
  · exact ⟨fun k => if k = 0 then (-1 + (1 : Nat) : Int) else 0, List.mem_map.2 ⟨1, by decide, rfl⟩, fun k _ => by simp⟩
  · exact ⟨fun k => if k = 0 then (-1 + (2 : Nat) : Int) else 0, List.mem_map.2 ⟨2, by decide, rfl⟩, fun k _ => rfl⟩
  · intro s hs k hk
    obtain ⟨i, hi, rfl⟩ := List.mem_map.1 hs
    rw [List.mem_range] at hi
    have : Int.tdiv (- ((4 : Nat) : Int)) 2 = -2 := by decide
    show _ ≤ (if k = 0 then _ else _) ∧ (if k = 0 then _ else _) ≤ _ ∧ _ ≤ (if k = 0 then _ else _) - (if k = 0 then _ else _) ∧ (if k = 0 then _ else _) - (if k = 0 then _ else _) ≤ _
    rw [this]
    split <;> omega

/-- C45. `is_cartesian` accepts the Cartesian directions only. -/
theorem C45_is_cartesian (n : Nat) (dir : Nat → Int) : isCartesian n dir = true ↔ Cartesian n dir := by
  have key : ∀ m, (((List.range m).map fun k => (dir k).natAbs).sum = 0 ↔ ∀ k < m, dir k = 0) ∧
      (((List.range m).map fun k => (dir k).natAbs).sum = 1 ↔ ∃ d < m, ∃ s : Int, (s = 1 ∨ s = -1) ∧ ∀ k < m, dir k = axis d s k) := by
    intro m
    induction m with
    | zero => simp
    | succ m ih =>
      rw [List.range_succ, List.map_append, List.sum_append]
      simp only [List.map_cons, List.map_nil, List.sum_cons, List.sum_nil, Nat.add_zero]
      refine ⟨⟨fun h k hk => ?_, fun h => ?_⟩, ⟨fun h => ?_, fun h => ?_⟩⟩
      · by_cases e : k = m
        · subst e; omega
        · exact ih.1.1 (by omega) k (by omega)
      · rw [ih.1.2 fun k hk => h k (by omega), h m (by omega)]; rfl
      · by_cases e : dir m = 0
        · rw [e] at h
          obtain ⟨d, hd, s, hs, h⟩ := ih.2.1 (by simpa using h)
          refine ⟨d, by omega, s, hs, fun k hk => ?_⟩
          by_cases e' : k = m
          · subst e'; rw [e]; unfold axis; rw [if_neg (by omega)]
          · exact h k (by omega)
        · have h0 := ih.1.1 (by omega)
          refine ⟨m, by omega, dir m, by omega, fun k hk => ?_⟩
          unfold axis
          by_cases e' : k = m
          · rw [if_pos e', e']
          · rw [if_neg e']; exact h0 k (by omega)
      · obtain ⟨d, hd, s, hs, h⟩ := h
        by_cases e : d = m
        · subst e
          have h1 := h d (by omega)
          unfold axis at h1
          rw [if_pos rfl] at h1
          rw [ih.1.2 fun k hk => by rw [h k (by omega)]; unfold axis; rw [if_neg (by omega)], h1]
          rcases hs with rfl | rfl <;> rfl
        · rw [ih.2.2 ⟨d, by omega, s, hs, fun k hk => h k (by omega)⟩, h m (by omega)]
          unfold axis
          rw [if_neg (by omega)]
          rfl
  unfold isCartesian Cartesian
  rw [beq_iff_eq, (key (n + 1)).2]
  constructor
  · rintro ⟨d, hd, s, hs, h⟩; exact ⟨d, by omega, s, hs, fun k hk => h k (by omega)⟩
  · rintro ⟨d, hd, s, hs, h⟩; exact ⟨d, by omega, s, hs, fun k hk => h k (by omega)⟩

example : isCartesian 2 (vec [0, -1, 0]) = true ∧ isCartesian 2 (vec [1, -1, 0]) = false := by decide +kernel

/-- For a direction that is not Cartesian the conversion is not a rotation: towards (1, 1) it lengthens the vectors. -/
theorem C45_diagonal_refuted : ∃ dir v w, (∀ k ≤ 1, dir k = 1 ∨ dir k = -1) ∧ convertForDirection 1 [v] dir = [w] ∧ dot 1 w w ≠ dot 1 v v :=
  ⟨vec [1, 1], vec [1, 0], rotateVec 1 1 1 (vec [1, 0]), by intro k hk; rcases Nat.le_one_iff_eq_zero_or_eq_one.1 hk with rfl | rfl <;> exact Or.inl rfl, rfl, by decide +kernel⟩

/-! ### C52 -/

/-- C52. The star stencil of every dimension 1, 2, 3 and width 0, 1, 2 lists the centre and the vectors of length at most the width on the
axes, each once. -/
theorem C52_star (n w : Nat) (hn : n ≤ 2) (hw : w ≤ 2) :
    ∃ S, starStencil n w = some S ∧ S.Nodup ∧ S.length = 1 + 2 * (n + 1) * w ∧
      ∀ v, v ∈ S ↔ v = (fun _ => 0) ∨ ∃ d ≤ n, ∃ k : Int, k ≠ 0 ∧ - (w : Int) ≤ k ∧ k ≤ w ∧ v = axis d k := by
  have key : ∃ L : List (List Int), starStencil n w = some (L.map vec) ∧ L.Perm (starList n w) ∧ (L.map fun l => (List.range (n + 1)).map (vec l)).Nodup := by
    have : (n = 0 ∨ n = 1 ∨ n = 2) ∧ (w = 0 ∨ w = 1 ∨ w = 2) := by omega
    obtain ⟨rfl | rfl | rfl, rfl | rfl | rfl⟩ := this
    · exact ⟨[[0]], rfl, by decide +kernel, by decide +kernel⟩
    · exact ⟨[[-1], [0], [1]], rfl, by decide +kernel, by decide +kernel⟩
    · exact ⟨[[-2], [-1], [0], [1], [2]], rfl, by decide +kernel, by decide +kernel⟩
    · exact ⟨[[0, 0]], rfl, by decide +kernel, by decide +kernel⟩
    · exact ⟨[[-1, 0], [0, 0], [1, 0], [0, -1], [0, 1]], rfl, by decide +kernel, by decide +kernel⟩
    · exact ⟨[[-2, 0], [-1, 0], [0, 0], [1, 0], [2, 0], [0, -2], [0, -1], [0, 1], [0, 2]], rfl, by decide +kernel, by decide +kernel⟩
    · exact ⟨[[0, 0, 0]], rfl, by decide +kernel, by decide +kernel⟩
    · exact ⟨[[-1, 0, 0], [0, 0, 0], [1, 0, 0], [0, -1, 0], [0, 1, 0], [0, 0, -1], [0, 0, 1]], rfl, by decide +kernel, by decide +kernel⟩
    · exact ⟨[[-2, 0, 0], [-1, 0, 0], [0, 0, 0], [1, 0, 0], [2, 0, 0], [0, -2, 0], [0, -1, 0], [0, 1, 0], [0, 2, 0], [0, 0, -2], [0, 0, -1], [0, 0, 1], [0, 0, 2]],
        rfl, by decide +kernel, by decide +kernel⟩
  obtain ⟨L, h1, h2, h3⟩ := key
  refine ⟨L.map vec, h1, ?_, ?_, fun v => ?_⟩
  · refine List.Nodup.of_map (fun v => (List.range (n + 1)).map v) ?_
    rw [List.map_map]
    exact h3
  · rw [List.length_map, h2.length_eq, starList_length]
  · rw [(h2.map vec).mem_iff, mem_starList]

/-- C52. `line_stencil_from` lists consecutive offsets along `d`, and `line_stencil(a, b, ...)` the given ones. -/
theorem C52_line (d size : Nat) (start : Int) (l : List Int) :
    (lineStencilFrom d size start).length = size ∧ (∀ i : Nat, ∀ h : i < (lineStencilFrom d size start).length, (lineStencilFrom d size start)[i] = axis d (start + i)) ∧
      lineStencilOf d l = l.map (axis d) := by
  refine ⟨by simp [lineStencilFrom], fun i h => ?_, rfl⟩
  simp only [lineStencilFrom, List.getElem_map, List.getElem_range]
  rfl

/-- C52. `find_stencil_origin` returns the first position of the zero vector, and -1 exactly when there is none. -/
theorem C52_origin (n : Nat) (S : List (Nat → Int)) :
    (stencilOrigin n S = none ↔ ∀ s ∈ S, ∃ k ≤ n, s k ≠ 0) ∧
    ∀ i, stencilOrigin n S = some i ↔ ∃ h : i < S.length, (∀ k ≤ n, S[i] k = 0) ∧ ∀ j (hj : j < i), ∃ k ≤ n, (S[j]'(by omega)) k ≠ 0 := by
  unfold stencilOrigin
  have e : ∀ s : Nat → Int, ((List.range (n + 1)).all fun k => s k == 0) = true ↔ ∀ k ≤ n, s k = 0 := by
    intro s
    rw [List.all_eq_true]
    simp only [List.mem_range, beq_iff_eq, Nat.lt_succ_iff]
  have e' : ∀ s : Nat → Int, ¬ ((List.range (n + 1)).all fun k => s k == 0) = true ↔ ∃ k ≤ n, s k ≠ 0 := by
    intro s
    rw [e]
    push_neg
    rfl
  constructor
  · rw [List.findIdx?_eq_none_iff]
    exact forall₂_congr fun s _ => by rw [← e', Bool.not_eq_true]
  · intro i
    rw [List.findIdx?_eq_some_iff_getElem]
    simp only [e]
    push Not
    rfl

example : stencilOrigin 1 [vec [-1, 0], vec [0, 0], vec [0, 0]] = some 1 := by decide +kernel

/-- C52. From size 2 on, the line stencil of a direction suits its interfaces: it holds both cells, fits in `w` ghost cells if its larger half does,
and its origin is at position `size / 2 - 1`. -/
theorem C52_line_origin (n d size w : Nat) (hd : d ≤ n) (hs : 2 ≤ size) (hw : size ≤ 2 * w) :
    stencilOrigin n (lineStencil d size) = some (size / 2 - 1) ∧ StencilOK n w (unitDir d) (lineStencil d size) := by
  have e : Int.tdiv (- (size : Int)) 2 + 1 = 1 - ((size / 2 : Nat) : Int) := by
    rw [Int.neg_tdiv]
    have : Int.tdiv (size : Int) 2 = ((size / 2 : Nat) : Int) := rfl
    omega
  have hl : lineStencil d size = lineStencilFrom d size (1 - ((size / 2 : Nat) : Int)) := by unfold lineStencil; rw [e]
  obtain ⟨l1, l2, -⟩ := C52_line d size (1 - ((size / 2 : Nat) : Int)) []
  rw [hl]
  refine ⟨((C52_origin n _).2 _).2 ⟨by rw [l1]; omega, fun k _ => ?_, fun j hj => ⟨d, hd, ?_⟩⟩, ⟨?_, ?_, fun s hs k hk => ?_⟩⟩
  · rw [l2]; unfold axis; split <;> omega
  · rw [l2]; unfold axis; rw [if_pos rfl]; omega
  · refine ⟨_, List.getElem_mem (by rw [l1]; omega : size / 2 - 1 < _), fun k _ => ?_⟩
    rw [l2]; unfold axis; split <;> omega
  · refine ⟨_, List.getElem_mem (by rw [l1]; omega : size / 2 < _), fun k _ => ?_⟩
    rw [l2]; unfold axis unitDir; split <;> omega
  · obtain ⟨i, hi, rfl⟩ := List.getElem_of_mem hs
    rw [l2]
    rw [l1] at hi
    unfold axis unitDir
    split <;> omega

example : stencilOrigin 1 (lineStencil 1 6) = some 2 ∧ (lineStencil 1 6).map (fun v => [v 0, v 1]) = [[0, -2], [0, -1], [0, 0], [0, 1], [0, 2], [0, 3]] := by
  decide +kernel

/-- The line stencil of size 1 does not hold the origin: the iterators on stencils reject it. -/
theorem C52_line_size_one_refuted : stencilOrigin 0 (lineStencil 0 1) = none ∧ ∀ ref level c, stencilInit 0 ref (lineStencil 0 1) level c = none := by
  have h : stencilOrigin 0 (lineStencil 0 1) = none := by decide +kernel
  refine ⟨h, fun ref level c => ?_⟩
  unfold stencilInit
  rw [h]

/-- C52. `is_line_stencil` holds exactly when all the vectors lie on one axis. -/
theorem C52_is_line (n : Nat) (S : List (Nat → Int)) : isLineStencil n S = true ↔ ∃ d ≤ n, ∀ s ∈ S, ∀ k ≤ n, s k ≠ 0 → k = d := by
  unfold isLineStencil
  by_cases hn : n = 0
  · rw [if_pos hn]
    exact ⟨fun _ => ⟨0, by omega, fun s _ k hk _ => by omega⟩, fun _ => rfl⟩
  · rw [if_neg hn]
    exact isLineLoop_none n S

/-- C52. The Cartesian directions are the unit vectors and their opposites, each once, and the positive ones are the unit vectors in the
order of the coordinates. -/
theorem C52_directions (n : Nat) (hn : n ≤ 2) :
    positiveDirections n = some ((List.range (n + 1)).map unitDir) ∧
    ∃ S, cartesianDirections n = some S ∧ S.Nodup ∧ ∀ v, v ∈ S ↔ ∃ d ≤ n, v = axis d 1 ∨ v = axis d (-1) := by
  have h3 : n = 0 ∨ n = 1 ∨ n = 2 := by omega
  have key : ∃ P L : List (List Int), positiveDirections n = some (P.map vec) ∧ P = (List.range (n + 1)).map (fun d => (List.range (n + 1)).map (axis d 1)) ∧
      cartesianDirections n = some (L.map vec) ∧ L.Perm (dirList n) ∧ (L.map fun l => (List.range (n + 1)).map (vec l)).Nodup := by
    rcases h3 with rfl | rfl | rfl
    · exact ⟨[[1]], [[-1], [1]], rfl, by decide +kernel, rfl, by decide +kernel, by decide +kernel⟩
    · exact ⟨[[1, 0], [0, 1]], [[-1, 0], [1, 0], [0, -1], [0, 1]], rfl, by decide +kernel, rfl, by decide +kernel, by decide +kernel⟩
    · exact ⟨[[1, 0, 0], [0, 1, 0], [0, 0, 1]], [[-1, 0, 0], [1, 0, 0], [0, -1, 0], [0, 1, 0], [0, 0, -1], [0, 0, 1]], rfl, by decide +kernel, rfl, by decide +kernel, by decide +kernel⟩
  obtain ⟨P, L, p1, p2, h1, h2, h3⟩ := key
  refine ⟨?_, L.map vec, h1, ?_, fun v => ?_⟩
  · rw [p1, p2, List.map_map]
    congr 1
    refine List.map_congr_left fun d hd => ?_
    rw [List.mem_range] at hd
    exact (axis_vec (by omega)).symm
  · refine List.Nodup.of_map (fun v => (List.range (n + 1)).map v) ?_
    rw [List.map_map]
    exact h3
  · rw [(h2.map vec).mem_iff, mem_dirList]

/-- C52. For width 1 and 2 the directional stencils list each Cartesian direction once, with the centre, then the cells backwards, then
the cells (ghosts, on a boundary) forwards. -/
theorem C52_directional (n w : Nat) (hn : n ≤ 2) (h1 : 1 ≤ w) (hw : w ≤ 2) :
    ∃ (D S : List (Nat → Int)), cartesianDirections n = some S ∧ D.Perm S ∧
      directionalStencils n w = some (D.map fun dir => some (dir, (fun _ => 0) :: ((List.range w).map fun i : Nat => fun k => - ((i : Int) + 1) * dir k) ++
        ((List.range w).map fun i : Nat => fun k => ((i : Int) + 1) * dir k))) := by
  have key : ∃ L L' : List (List Int), cartesianDirections n = some (L'.map vec) ∧ L.Perm L' ∧
      directionalStencils n w = some (L.map fun l => some (vec l, (dirStencilList w l).map vec)) := by
    have h2 : (n = 0 ∨ n = 1 ∨ n = 2) ∧ (w = 1 ∨ w = 2) := by omega
    obtain ⟨rfl | rfl | rfl, rfl | rfl⟩ := h2
    · exact ⟨[[-1], [1]], [[-1], [1]], rfl, by decide +kernel, rfl⟩
    · exact ⟨[[-1], [1]], [[-1], [1]], rfl, by decide +kernel, rfl⟩
    · exact ⟨[[-1, 0], [0, 1], [1, 0], [0, -1]], [[-1, 0], [1, 0], [0, -1], [0, 1]], rfl, by decide +kernel, rfl⟩
    · exact ⟨[[-1, 0], [0, 1], [1, 0], [0, -1]], [[-1, 0], [1, 0], [0, -1], [0, 1]], rfl, by decide +kernel, rfl⟩
    · exact ⟨[[-1, 0, 0], [0, 1, 0], [1, 0, 0], [0, -1, 0], [0, 0, -1], [0, 0, 1]],
        [[-1, 0, 0], [1, 0, 0], [0, -1, 0], [0, 1, 0], [0, 0, -1], [0, 0, 1]], rfl, by decide +kernel, rfl⟩
    · exact ⟨[[-1, 0, 0], [0, 1, 0], [1, 0, 0], [0, -1, 0], [0, 0, -1], [0, 0, 1]],
        [[-1, 0, 0], [1, 0, 0], [0, -1, 0], [0, 1, 0], [0, 0, -1], [0, 0, 1]], rfl, by decide +kernel, rfl⟩
  obtain ⟨L, L', k1, k2, k3⟩ := key
  refine ⟨L.map vec, L'.map vec, k1, k2.map vec, ?_⟩
  rw [k3, List.map_map]
  congr 1
  refine List.map_congr_left fun l _ => ?_
  show some (vec l, _) = some (vec l, _)
  rw [dirStencilList_vec]

/-- With width 0, `directional_stencils` returns entries that are not initialised. -/
theorem C52_directional_refuted (n : Nat) (hn : n ≤ 2) : ∃ l, directionalStencils n 0 = some l ∧ none ∈ l := by
  have : n = 0 ∨ n = 1 ∨ n = 2 := by omega
  rcases this with rfl | rfl | rfl <;> exact ⟨_, rfl, by simp⟩

end Samurai
