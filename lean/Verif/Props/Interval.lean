import Verif.Lemmas.Interval

namespace Samurai

/-- C01 (coarsening): `x ∈ I >> k` iff `x` is the `k`-th ancestor of an element of `I`. -/
theorem C01_shiftRight (i : Interval) (k : Nat) (x : Int) (hv : i.isValid = true) :
    x ∈ i.shiftRight k ↔ ∃ y ∈ i, IsAncestor k x y := by
  have hv : i.start < i.stop := by simpa [Interval.isValid] using hv
  rw [mem_shiftRight hv]
  simp only [isAncestor_iff, eq_comm]

example : (Interval.mk' (-3) 5).isValid = true ∧ (-2 : Int) ∈ (Interval.mk' (-3) 5).shiftRight 1 := by
  decide

/-- C01 (refinement): `x ∈ I << k` iff the `k`-th ancestor of `x` is in `I`. -/
theorem C01_shiftLeft (i : Interval) (k : Nat) (x : Int) :
    x ∈ i.shiftLeft k ↔ ∃ a ∈ i, IsAncestor k a x := by
  rw [mem_shiftLeft]
  constructor
  · intro h; exact ⟨_, h, isAncestor_iff.2 rfl⟩
  · rintro ⟨a, ha, h⟩; rw [← isAncestor_iff.1 h]; exact ha

/-- C01: refining then coarsening by the same amount restores the bounds. -/
theorem C01_roundTrip (i : Interval) (k : Nat) (hv : i.isValid = true) :
    ((i.shiftLeft k).shiftRight k).start = i.start ∧ ((i.shiftLeft k).shiftRight k).stop = i.stop := by
  have hv : i.start < i.stop := by simpa [Interval.isValid] using hv
  refine ⟨shr_shl _ _, ?_⟩
  show shr (shl i.stop k - 1) k + 1 = i.stop
  have h1 : shr (shl i.stop k - 1) k < i.stop := shr_lt_iff.2 (by omega)
  have h2 : i.stop - 1 ≤ shr (shl i.stop k - 1) k := by
    rw [le_shr_iff]
    have := (shl_lt_shl (a := i.stop - 1) (b := i.stop) k).2 (by omega)
    omega
  omega

/-- C01: coarsening then refining covers the original interval. -/
theorem C01_cover (i : Interval) (k : Nat) (x : Int) (hx : x ∈ i) :
    x ∈ (i.shiftRight k).shiftLeft k := by
  rw [mem_shiftLeft, mem_shiftRight (by have := Interval.mem_def.1 hx; omega)]
  exact ⟨x, hx, rfl⟩

/-- C01: the coarsened valid interval is valid, so is the refined one. -/
theorem C01_valid (i : Interval) (k : Nat) (hv : i.isValid = true) :
    (i.shiftRight k).isValid = true ∧ (i.shiftLeft k).isValid = true := by
  have hv : i.start < i.stop := by simpa [Interval.isValid] using hv
  refine ⟨decide_eq_true ?_, decide_eq_true ((shl_lt_shl k).2 hv)⟩
  show shr i.start k < shr (i.stop - 1) k + 1
  have := shr_le_shr k (show i.start ≤ i.stop - 1 by omega)
  omega

/-- `contains` decides membership. -/
theorem C01_contains (i : Interval) (x : Int) : i.contains x = true ↔ x ∈ i := by
  simp [Interval.contains, Interval.mem_def]

/-- C02: walking the even elements meets exactly the even members. -/
theorem C02_even (i : Interval) (x : Int) :
    i.evenElements.Walk x ↔ x ∈ i ∧ x % 2 = 0 := by
  simp only [Interval.Walk, Interval.evenElements, Interval.mem_def]
  constructor
  · rintro ⟨n, rfl, h⟩
    split at h <;> split <;> split at h <;> omega
  · rintro ⟨⟨h1, h2⟩, h3⟩
    refine ⟨((x - (i.start + if i.start % 2 = 1 then 1 else 0)) / 2).toNat, ?_, ?_⟩
    · split <;> omega
    · split <;> omega

/-- C02: walking the odd elements meets exactly the odd members. -/
theorem C02_odd (i : Interval) (x : Int) :
    i.oddElements.Walk x ↔ x ∈ i ∧ x % 2 = 1 := by
  simp only [Interval.Walk, Interval.oddElements, Interval.mem_def]
  constructor
  · rintro ⟨n, rfl, h⟩
    split at h <;> split <;> split at h <;> omega
  · rintro ⟨⟨h1, h2⟩, h3⟩
    refine ⟨((x - (i.start + if i.start % 2 = 1 then 0 else 1)) / 2).toNat, ?_, ?_⟩
    · split <;> omega
    · split <;> omega

/-- C02: every member is met exactly once by the two walks together. -/
theorem C02_partition (i : Interval) (x : Int) :
    (x ∈ i ↔ (i.evenElements.Walk x ∨ i.oddElements.Walk x)) ∧
      ¬ (i.evenElements.Walk x ∧ i.oddElements.Walk x) := by
  rw [C02_even, C02_odd]
  constructor
  · constructor
    · intro h; rcases Int.emod_two_eq_zero_or_one x with h0 | h0 <;> simp [h, h0]
    · rintro (h | h) <;> exact h.1
  · rintro ⟨⟨_, h1⟩, _, h2⟩; omega

/-- C02: no element is met twice, and the `n`-th element of the even (odd) walk has as parent the
`n`-th coordinate following the parent of the first one. -/
theorem C02_parent (i : Interval) (n : Nat) :
    shr (i.evenElements.start + n * i.evenElements.step) 1 = shr i.evenElements.start 1 + n ∧
    shr (i.oddElements.start + n * i.oddElements.step) 1 = shr i.oddElements.start 1 + n := by
  simp only [shr, Interval.evenElements, Interval.oddElements]
  constructor <;> split <;> omega

example : (Interval.mk' (-3) 4).evenElements.Walk (-2) ∧ (Interval.mk' (-3) 4).oddElements.Walk 3 := by
  rw [C02_even, C02_odd]; decide

/-- C03 (refuted): the documented contract of `operator/` fails, `[0,3) / 2` misses `2 / 2`. -/
theorem C03_div_refuted :
    ¬ ∀ (i : Interval) (n : Int), i.isValid = true → 0 < n →
        ∀ x ∈ i, Int.fdiv x n ∈ i.div n := by
  intro h
  have := h (Interval.mk' 0 3) 2 (by decide) (by decide) 2 (by decide)
  revert this; decide

/-- C03 (what does hold): the contract holds when the end is a multiple of the divisor, or when
the whole interval has a single quotient cell. -/
theorem C03_div_partial (i : Interval) (n : Int) (hv : i.isValid = true) (hn : 0 < n)
    (hd : i.stop % n = 0 ∨ Int.fdiv i.start n = Int.fdiv i.stop n) (x : Int) (hx : x ∈ i) :
    Int.fdiv x n ∈ i.div n := by
  have hv : i.start < i.stop := by simpa [Interval.isValid] using hv
  rw [Interval.mem_def] at hx ⊢
  simp only [Interval.div, Int.fdiv_eq_ediv_of_nonneg _ hn.le] at hd ⊢
  have h1 := Int.ediv_le_ediv hn hx.1
  refine ⟨h1, ?_⟩
  have h2 := Int.ediv_le_ediv hn hx.2.le
  rcases hd with hd | hd
  · split
    · omega
    · rw [Int.ediv_lt_iff_lt_mul hn, Int.ediv_mul_cancel (Int.dvd_of_emod_eq_zero hd)]
      exact hx.2
  · rw [if_pos hd]; omega

example : (Interval.mk' (-3) 4).isValid = true ∧ (Interval.mk' (-3) 4).stop % 2 = 0 := by decide

/-- C50: `i + v`, `v + i` translate by `v`. -/
theorem C50_add (i : Interval) (v x : Int) :
    (x ∈ i.addRight v ↔ x - v ∈ i) ∧ (x ∈ Interval.addLeft v i ↔ x - v ∈ i) := by
  simp only [Interval.mem_def, Interval.addRight, Interval.addLeft, Interval.addAssign]
  omega

/-- C50: `i - v` translates by `-v`. -/
theorem C50_sub (i : Interval) (v x : Int) : x ∈ i.subRight v ↔ x + v ∈ i := by
  simp only [Interval.mem_def, Interval.subRight, Interval.subAssign]
  omega

/-- C50 (refuted): `v - i` is not the set of differences `v - y`; the code returns `i - v`. -/
theorem C50_subLeft_refuted :
    ¬ ∀ (v : Int) (i : Interval) (x : Int), x ∈ Interval.subLeft v i ↔ ∃ y ∈ i, x = v - y := by
  intro h
  have := (h 5 (Interval.mk' 0 1) (-5)).1 (by decide)
  obtain ⟨y, hy, h5⟩ := this
  rw [Interval.mem_def] at hy
  simp [Interval.mk'] at hy
  omega

/-- C50: walking `i * n` (for `n > 0` and step 1) meets exactly the multiples `n * y`, `y ∈ i`. -/
theorem C50_mul (i : Interval) (n x : Int) (hn : 0 < n) (hs : i.step = 1) :
    (i.mul n).Walk x ↔ ∃ y ∈ i, x = y * n := by
  simp only [Interval.Walk, Interval.mul, Interval.mem_def, hs, one_mul]
  constructor
  · rintro ⟨m, rfl, h⟩
    refine ⟨i.start + m, ⟨by omega, ?_⟩, by ring⟩
    have : (i.start + m) * n < i.stop * n := by linarith [add_mul i.start (m : Int) n]
    exact lt_of_mul_lt_mul_right this hn.le
  · rintro ⟨y, ⟨h1, h2⟩, rfl⟩
    refine ⟨(y - i.start).toNat, ?_, mul_lt_mul_of_pos_right h2 hn⟩
    rw [Int.toNat_of_nonneg (by omega)]; ring

example : (Interval.mk' 2 5).step = 1 ∧ ((Interval.mk' 2 5).mul 3).step = 3 := by decide

end Samurai
