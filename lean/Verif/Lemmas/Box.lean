import Verif.Lemmas.Numbering
import Verif.Spec.Box

namespace Samurai

/-- Number of rows of direction `d` when the directions above are those of the box: product of the
lengths of the directions `d + 1, ..., d + m`. -/
def rowsAbove (b : Box) (d : Nat) : Nat → Nat
  | 0 => 1
  | m + 1 => rowsAbove b (d + 1) m * b.len (d + 1)

theorem boxLoop_frame (b : Box) (d size : Nat) (s : LCA) :
    (∀ k, d < k → (boxLoop b d size s).2.cells k = s.cells k) ∧
    (∀ k, d ≤ k → (boxLoop b d size s).2.offsets k = s.offsets k) ∧ (boxLoop b d size s).2.level = s.level := by
  induction d generalizing size s with
  | zero => simp [boxLoop]
  | succ d ih =>
    obtain ⟨h1, h2, h3⟩ := ih (size * b.len (d + 1))
      { s with offsets := Function.update s.offsets d (List.range (b.len (d + 1) * size + 1))
               cells := Function.update s.cells (d + 1) ((List.range size).map fun i =>
                Interval.mk' (b.lo (d + 1)) (b.hi (d + 1))
                  (((List.range (b.len (d + 1) * size + 1)).getD (i * b.len (d + 1)) 0 : Nat) - b.lo (d + 1))) }
    refine ⟨fun k hk => ?_, fun k hk => ?_, h3⟩
    · simp only [boxLoop]
      rw [h1 k (by omega)]
      simp only []
      rw [Function.update_of_ne (by omega)]
    · simp only [boxLoop]
      rw [h2 k (by omega)]
      simp only []
      rw [Function.update_of_ne (by omega)]

/-- The row of intervals of direction `d` of a box, for `size` rows. -/
def boxCells (b : Box) (d size : Nat) : List Interval :=
  (List.range size).map fun (i : Nat) => Interval.mk' (b.lo d) (b.hi d) ((i * b.len d : Nat) - b.lo d)

theorem boxLoop_spec (b : Box) (n : Nat) (d : Nat) : ∀ m s, m + d = n →
    (boxLoop b d (rowsAbove b d m) s).1 = rowsAbove b 0 n ∧
    (∀ k, 0 < k → k ≤ d → (boxLoop b d (rowsAbove b d m) s).2.cells k = boxCells b k (rowsAbove b k (n - k))) ∧
    (∀ k, k < d → (boxLoop b d (rowsAbove b d m) s).2.offsets k =
      List.range (rowsAbove b k (n - k) + 1)) := by
  induction d with
  | zero =>
    intro m s hm
    obtain rfl : m = n := by omega
    exact ⟨rfl, fun k h1 h2 => by omega, fun k h => by omega⟩
  | succ d ih =>
    intro m s hm
    simp only [boxLoop]
    have hsz : rowsAbove b (d + 1) m * b.len (d + 1) = rowsAbove b d (m + 1) := rfl
    rw [hsz]
    generalize hs' : ({ s with offsets := _, cells := _ } : LCA) = s'
    obtain ⟨h1, h2, h3⟩ := ih (m + 1) s' (by omega)
    obtain ⟨f1, f2, _⟩ := boxLoop_frame b d (rowsAbove b d (m + 1)) s'
    refine ⟨h1, fun k hk1 hk2 => ?_, fun k hk => ?_⟩
    · rcases Nat.lt_or_eq_of_le hk2 with hlt | rfl
      · exact h2 k hk1 (by omega)
      · rw [f1 _ (by omega), ← hs']
        simp only [Function.update_self]
        rw [show n - (d + 1) = m by omega]
        unfold boxCells
        apply List.map_congr_left
        intro i hi
        rw [List.mem_range] at hi
        have hlt : i * b.len (d + 1) < b.len (d + 1) * rowsAbove b (d + 1) m + 1 := by
          rw [Nat.mul_comm (b.len (d + 1))]
          exact Nat.lt_succ_of_le (Nat.mul_le_mul_right _ hi.le)
        congr 2
        rw [List.getD_eq_getElem?_getD, List.getElem?_range hlt, Option.getD_some]
    · rcases Nat.lt_or_ge k d with hlt | hge
      · exact h3 k hlt
      · obtain rfl : k = d := by omega
        rw [f2 k le_rfl, ← hs']
        simp only [Function.update_self]
        rw [show n - k = m + 1 by omega, Nat.mul_comm]
        rfl

theorem ofBox_spec (b : Box) (n level : Nat) :
    (∀ k, k ≤ n → (LCA.ofBox n level b).cells k = boxCells b k (rowsAbove b k (n - k))) ∧
    (∀ k, k < n → (LCA.ofBox n level b).offsets k = List.range (rowsAbove b k (n - k) + 1)) ∧
    (LCA.ofBox n level b).level = level := by
  obtain ⟨h1, h2, h3⟩ := boxLoop_spec b n n 0 { level := level } (by omega)
  have h1' : (boxLoop b n 1 { level := level }).1 = rowsAbove b 0 n := h1
  unfold LCA.ofBox
  refine ⟨fun k hk => ?_, fun k hk => h3 k hk, ?_⟩
  · cases k with
    | zero =>
      simp only [Function.update_self, h1']
      rfl
    | succ k =>
      simp only []
      rw [Function.update_of_ne (by omega)]
      exact h2 (k + 1) (by omega) hk
  · exact (boxLoop_frame b n 1 { level := level }).2.2

theorem boxCells_length (b : Box) (d size : Nat) : (boxCells b d size).length = size := by
  simp [boxCells]

theorem boxCells_totalSize (b : Box) (d size : Nat) : totalSize (boxCells b d size) = size * b.len d := by
  unfold totalSize boxCells
  rw [List.map_map]
  have : (Interval.size ∘ fun (i : Nat) => Interval.mk' (b.lo d) (b.hi d) ((i * b.len d : Nat) - b.lo d))
      = fun _ => b.len d := by
    funext i; rfl
  rw [this, List.map_const', List.sum_replicate_nat, List.length_range]

theorem boxCells_index (b : Box) (d size : Nat) : IndexFrom 0 (boxCells b d size) := by
  have key : ∀ size a, IndexFrom ((a * b.len d : Nat) : Int) ((List.range' a size).map fun (i : Nat) =>
      Interval.mk' (b.lo d) (b.hi d) ((i * b.len d : Nat) - b.lo d)) := by
    intro size
    induction size with
    | zero => intro a; trivial
    | succ size ih =>
      intro a
      rw [List.range'_succ, List.map_cons]
      refine ⟨?_, ?_⟩
      · simp [Interval.mk']
      · have := ih (a + 1)
        rw [Nat.add_mul, Nat.one_mul] at this
        have hs : (Interval.mk' (b.lo d) (b.hi d) (((a * b.len d : Nat) : Int) - b.lo d)).size = b.len d := rfl
        rw [hs]
        exact_mod_cast this
  have := key size 0
  unfold boxCells
  rw [List.range_eq_range']
  simpa using this

theorem boxCells_getElem? (b : Box) (d size k : Nat) (hk : k < size) :
    (boxCells b d size)[k]? = some (Interval.mk' (b.lo d) (b.hi d) ((k * b.len d : Nat) - b.lo d)) := by
  unfold boxCells
  rw [List.getElem?_map, List.getElem?_range hk]
  rfl

theorem boxCells_slice (b : Box) (d size k : Nat) (hk : k < size) :
    slice (boxCells b d size) k (k + 1) = [Interval.mk' (b.lo d) (b.hi d) ((k * b.len d : Nat) - b.lo d)] := by
  rw [slice_cons (by omega) (boxCells_getElem? b d size k hk), slice_nil]

theorem rowsAbove_pos {b : Box} {n : Nat} (hv : ∀ d ≤ n, b.lo d < b.hi d) : ∀ m d, m + d ≤ n → 0 < rowsAbove b d m := by
  intro m
  induction m with
  | zero => intro d _; exact Nat.one_pos
  | succ m ih =>
    intro d hd
    have := ih (d + 1) (by omega)
    have := hv (d + 1) (by omega)
    exact Nat.mul_pos (by assumption) (by unfold Box.len; omega)

theorem box_isValid {b : Box} {n : Nat} (hv : b.isValid n = true) : ∀ d ≤ n, b.lo d < b.hi d := by
  intro d hd
  unfold Box.isValid at hv
  rw [List.all_eq_true] at hv
  have := hv d (by rw [List.mem_range]; omega)
  simpa using this

theorem ofBox_wf {b : Box} {n : Nat} (level : Nat) (hv : ∀ d ≤ n, b.lo d < b.hi d) : (LCA.ofBox n level b).WF n := by
  obtain ⟨hc, ho, _⟩ := ofBox_spec b n level
  have hcount : ∀ d < n, ((LCA.ofBox n level b).offsets d).length = totalSize ((LCA.ofBox n level b).cells (d + 1)) + 1 := by
    intro d hd
    rw [ho d hd, hc (d + 1) (by omega), boxCells_totalSize, List.length_range]
    rw [show n - d = (n - (d + 1)) + 1 by omega]
    rfl
  have htopne : (LCA.ofBox n level b).cells n ≠ [] := by
    rw [hc n le_rfl]
    intro h
    have := congrArg List.length h
    rw [boxCells_length] at this
    have := rowsAbove_pos hv (n - n) n (by omega)
    simp_all
  refine ⟨?_, fun h => absurd h htopne, ?_, fun d hd _ => hcount d hd, ?_, ?_⟩
  · rw [hc n le_rfl, Nat.sub_self]
    exact hv n le_rfl
  · intro d hd
    rw [hc (d + 1) (by omega)]
    exact boxCells_index _ _ _
  · intro d hd _
    rw [ho d hd, hc d (by omega), boxCells_length, List.getLast?_range, if_neg (by omega)]
    rfl
  · intro d hd _
    rw [ho d hd, hc d (by omega)]
    refine ⟨by rw [List.getElem?_range (by omega)], ?_⟩
    intro j a c ha hb
    have h1 := (List.getElem?_eq_some_iff.1 hb).1
    rw [List.length_range] at h1
    rw [List.getElem?_range (by omega)] at ha hb
    simp only [Option.some.injEq] at ha hb
    subst ha
    subst hb
    refine ⟨by omega, by rw [boxCells_length]; omega, ?_⟩
    rw [boxCells_slice _ _ _ _ (by omega)]
    exact hv d (by omega)

theorem ofBox_mem {b : Box} {n : Nat} (level : Nat) (p : List Int) :
    (LCA.ofBox n level b).Mem n p ↔ InBox b n p := by
  obtain ⟨hc, ho, _⟩ := ofBox_spec b n level
  have key : ∀ d, d ≤ n → ∀ k, k < rowsAbove b d (n - d) → ∀ p,
      MemRow (LCA.ofBox n level b) d k (k + 1) p ↔ InBox b d p := by
    intro d
    induction d with
    | zero =>
      intro _ k hk p
      match p with
      | [] => simp [MemRow, InBox]
      | [x] =>
        simp only [MemRow, InBox]
        rw [hc 0 (by omega), boxCells_slice _ _ _ _ hk]
        simp [Interval.mem_def, Interval.mk']
      | _ :: _ :: _ => simp [MemRow, InBox]
    | succ d ih =>
      intro hd k hk p
      match p with
      | [] => simp [MemRow, InBox]
      | c :: p =>
        simp only [MemRow, InBox]
        rw [hc (d + 1) hd, boxCells_slice _ _ _ _ hk, ho d (by omega)]
        simp only [List.mem_singleton, exists_eq_left]
        have hrow : rowsAbove b d (n - d) = rowsAbove b (d + 1) (n - (d + 1)) * b.len (d + 1) := by
          rw [show n - d = (n - (d + 1)) + 1 by omega]; rfl
        have hlt : ∀ t : Nat, t < b.len (d + 1) → k * b.len (d + 1) + t < rowsAbove b d (n - d) := by
          intro t ht
          rw [hrow]
          calc k * b.len (d + 1) + t < k * b.len (d + 1) + b.len (d + 1) := by omega
            _ = (k + 1) * b.len (d + 1) := by rw [Nat.add_mul, Nat.one_mul]
            _ ≤ _ := Nat.mul_le_mul_right _ hk
        constructor
        · rintro ⟨hm, hz, a, e, ha, he, hp⟩
          have hm' := Interval.mem_def.1 hm
          simp only [Interval.mk'] at hm' ha he
          have ht := hlt (c - b.lo (d + 1)).toNat (by unfold Box.len; omega)
          have hj : (((k * b.len (d + 1) : Nat) : Int) - b.lo (d + 1) + c).toNat
              = k * b.len (d + 1) + (c - b.lo (d + 1)).toNat := by omega
          rw [hj, List.getElem?_range (by omega)] at ha
          rw [hj, List.getElem?_range (by omega)] at he
          simp only [Option.some.injEq] at ha he
          subst ha
          subst he
          exact ⟨hm', (ih (by omega) _ ht p).1 hp⟩
        · rintro ⟨hm, hp⟩
          have ht := hlt (c - b.lo (d + 1)).toNat (by unfold Box.len; omega)
          have hj : (((k * b.len (d + 1) : Nat) : Int) - b.lo (d + 1) + c).toNat
              = k * b.len (d + 1) + (c - b.lo (d + 1)).toNat := by omega
          refine ⟨Interval.mem_def.2 hm, by simp only [Interval.mk']; omega,
            k * b.len (d + 1) + (c - b.lo (d + 1)).toNat, _, ?_, ?_, (ih (by omega) _ ht p).2 hp⟩
          · simp only [Interval.mk']
            rw [hj, List.getElem?_range (by omega)]
          · simp only [Interval.mk']
            rw [hj, List.getElem?_range (by omega)]
  unfold LCA.Mem
  rw [hc n le_rfl, boxCells_length, Nat.sub_self]
  exact key n le_rfl 0 (by rw [Nat.sub_self]; exact Nat.one_pos) p

theorem rowsAbove_volume (b : Box) (n : Nat) : rowsAbove b 0 n * b.len 0 = boxVolume b n := by
  have key : ∀ m d, d + m = n → rowsAbove b d m * boxVolume b d = boxVolume b n := by
    intro m
    induction m with
    | zero =>
      intro d hd
      obtain rfl : d = n := by omega
      simp [rowsAbove]
    | succ m ih =>
      intro d hd
      rw [← ih (d + 1) (by omega)]
      simp only [rowsAbove, boxVolume, Box.len]
      ring
  exact key n 0 (by omega)

end Samurai
