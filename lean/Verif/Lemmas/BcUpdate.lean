import Verif.Lemmas.BcSets
import Verif.Lemmas.BcFormula

namespace Samurai

section
variable {K : Type} [Field K] {n : Nat} {ref : CA} {level : Nat}

/-- The value given to the ghost `i` of a line; `a j` is the value of the cell `j - k + 1` of the line. -/
def BcKind.row (h0 : K) (level : Nat) : BcKind → Nat → K → (Nat → K) → K
  | .dirichlet order, i, v, a => dirichletRow order (order - 1 + i) v a
  | .neumann, _, v, a => cellLength h0 level * v + a 0

theorem BcKind.size_eq (kd : BcKind) : kd.stencilSize = 2 * kd.ghosts := by
  cases kd with
  | dirichlet o => show 2 * o = 2 * (2 * o / 2); omega
  | neumann => rfl

theorem BcKind.Exists.ghosts_pos {kd : BcKind} (h : kd.Exists) : 1 ≤ kd.ghosts ∧ kd.ghosts ≤ 4 := by
  cases kd with
  | dirichlet o => show 1 ≤ 2 * o / 2 ∧ 2 * o / 2 ≤ 4; obtain ⟨h1, h2⟩ := h; omega
  | neumann => exact ⟨le_rfl, by decide⟩

/-- The cells of a line have different numbers. -/
theorem line_inj (hw : ref.WF n) (hd : ref.NumbersDiffer n) {p : List Int} (hp : p.length = n + 1) {v : Nat → Int} (hv : ∃ d ≤ n, v d ≠ 0) {k : Nat}
    (hr : ∀ j : Int, - (k : Int) < j → j ≤ k → ref.Mem n level (walk n p j v)) {i j : Int} (hi : - (k : Int) < i ∧ i ≤ k) (hj : - (k : Int) < j ∧ j ≤ k)
    (h : numOf n ref level (walk n p i v) = numOf n ref level (walk n p j v)) : i = j :=
  walk_inj hp hv (numOf_inj hw hd (hr i hi.1 hi.2) (hr j hj.1 hj.2) h)

theorem readAt_line (u : Int → K) {v : Nat → Int} {p : List Int} {k i : Nat} (hi : i < 2 * k) :
    readAt u (lineCells n ref level k v p) i = u (numOf n ref level (walk n p ((i : Int) - k + 1) v)) := by
  unfold readAt
  rw [cellAt_line hi]
  rfl

theorem writeAt_line (u : Int → K) {v : Nat → Int} {p : List Int} {k i : Nat} (hi : i < 2 * k) (x : K) (idx : Int) :
    writeAt u (lineCells n ref level k v p) i x idx = if idx = numOf n ref level (walk n p ((i : Int) - k + 1) v) then x else u idx := by
  unfold writeAt
  rw [cellAt_line hi]
  rfl

theorem kind_step (hw : ref.WF n) (hd : ref.NumbersDiffer n) (h0 : K) {kd : BcKind} (hk : kd.Exists) {p : List Int} (hp : p.length = n + 1)
    {v : Nat → Int} (hv : ∃ d ≤ n, v d ≠ 0) (hr : ∀ j : Int, - (kd.ghosts : Int) < j → j ≤ kd.ghosts → ref.Mem n level (walk n p j v)) (u : Int → K) (x : K) :
    (∀ idx, (∀ i : Nat, 1 ≤ i → i ≤ kd.ghosts → idx ≠ numOf n ref level (walk n p i v)) →
      kd.apply h0 u (lineCells n ref level kd.ghosts v p) x idx = u idx) ∧
    ∀ i : Nat, 1 ≤ i → i ≤ kd.ghosts → kd.apply h0 u (lineCells n ref level kd.ghosts v p) x (numOf n ref level (walk n p i v)) =
      kd.row h0 level i x fun j => u (numOf n ref level (walk n p ((j : Int) - kd.ghosts + 1) v)) := by
  cases kd with
  | neumann =>
    have e : (BcKind.neumann).ghosts = 1 := rfl
    rw [e] at hr ⊢
    have ha : ∀ idx, BcKind.neumann.apply h0 u (lineCells n ref level 1 v p) x idx =
        if idx = numOf n ref level (walk n p 1 v) then cellLength h0 level * x + u (numOf n ref level (walk n p 0 v)) else u idx := by
      intro idx
      show writeAt u _ 1 (cellLength h0 (cellAt _ 1).level * x + readAt u _ 0) idx = _
      rw [writeAt_line u (by omega), cellAt_line (by omega), readAt_line u (by omega)]
      rfl
    refine ⟨fun idx h => ?_, fun i h1 h2 => ?_⟩
    · rw [ha, if_neg]
      have := h 1 le_rfl le_rfl
      simpa using this
    · rw [ha, show i = 1 by omega, if_pos (by simp)]
      show _ = cellLength h0 level * x + u (numOf n ref level (walk n p (((0 : Nat) : Int) - ((1 : Nat) : Int) + 1) v))
      simp
  | dirichlet o =>
    have e : (BcKind.dirichlet o).ghosts = o := by show 2 * o / 2 = o; omega
    rw [e] at hr ⊢
    obtain ⟨o1, o4⟩ := hk
    have lin := fun {i j : Int} => line_inj (level := level) hw hd hp hv hr (i := i) (j := j)
    have hpos : ∀ i ∈ List.range' o o, o ≤ i ∧ i < 2 * o := fun i hi => by
      have := List.mem_range'_1.1 hi; omega
    obtain ⟨f1, f2⟩ := foldl_pass (step := fun u i => writeAt u (lineCells n ref level o v p) i (dirichletRow o i x (readAt u (lineCells n ref level o v p))))
      (W := fun i idx => idx = numOf n ref level (walk n p ((i : Int) - o + 1) v))
      (R := fun _ idx => ∃ j : Nat, j < o ∧ idx = numOf n ref level (walk n p ((j : Int) - o + 1) v))
      (val := fun u i _ => dirichletRow o i x fun j => u (numOf n ref level (walk n p ((j : Int) - o + 1) v)))
      (ps := List.range' o o) (List.nodup_range' (step := 1)) (by
        intro i hi u idx
        obtain ⟨i1, i2⟩ := hpos i hi
        have hcg : dirichletRow o i x (readAt u (lineCells n ref level o v p)) =
            dirichletRow o i x fun j => u (numOf n ref level (walk n p ((j : Int) - o + 1) v)) :=
          dirichletRow_congr o1 o4 i1 i2 x fun j hj => readAt_line u (by omega)
        constructor
        · intro h
          show writeAt u _ i _ idx = _
          rw [writeAt_line u i2, if_neg h]
        · intro h
          show writeAt u _ i _ idx = _
          rw [writeAt_line u i2, if_pos h, hcg])
      (by
        intro i hi u u' hR idx _
        obtain ⟨i1, i2⟩ := hpos i hi
        exact dirichletRow_congr o1 o4 i1 i2 x fun j hj => hR _ ⟨j, hj, rfl⟩)
      (by
        rintro i hi q hq idx h1 ⟨j, hj, h2⟩
        obtain ⟨i1, i2⟩ := hpos i hi
        rw [h1] at h2
        have := lin (by omega) (by omega) h2
        omega)
      (by
        intro i hi q hq hne idx h1 h2
        obtain ⟨i1, i2⟩ := hpos i hi
        obtain ⟨q1, q2⟩ := hpos q hq
        rw [h1] at h2
        have := lin (by omega) (by omega) h2
        exact hne (by omega)) u
    refine ⟨fun idx h => f1 idx fun i hi hidx => ?_, fun i h1 h2 => ?_⟩
    · obtain ⟨i1, i2⟩ := hpos i hi
      refine h (i - o + 1) (by omega) (by omega) ?_
      rw [hidx]
      congr 2
      omega
    · exact f2 (o - 1 + i) (List.mem_range'_1.2 (by omega)) _ (by congr 2; omega)

/-- `PolynomialExtrapolation` on one cell. -/
theorem extrapolation_step {k : Nat} (hk : 1 ≤ k) (h3 : k ≤ 3) {p : List Int} {v : Nat → Int} (u : Int → K) (idx : Int) :
    applyExtrapolation (2 * k) u (lineCells n ref level k v p) idx =
      if idx = numOf n ref level (walk n p k v) then extrapolationRow (2 * k) fun j => u (numOf n ref level (walk n p ((j : Int) - k + 1) v)) else u idx := by
  unfold applyExtrapolation
  rw [writeAt_line u (by omega)]
  have e : extrapolationRow (2 * k) (readAt u (lineCells n ref level k v p)) =
      extrapolationRow (2 * k) fun j => u (numOf n ref level (walk n p ((j : Int) - k + 1) v)) :=
    extrapolationRow_congr hk h3 fun j hj => readAt_line u (by omega)
  rw [e, show (((2 * k - 1 : Nat) : Int) - k + 1) = k by omega]

/-! ### passes -/

/-- Only the numbers of the cells of `T` change. -/
def Keeps (n : Nat) (ref : CA) (level : Nat) (T : List Int → Prop) (u u' : Int → K) : Prop :=
  ∀ idx, (∀ g, ref.Mem n level g → T g → idx ≠ numOf n ref level g) → u' idx = u idx

omit [Field K] in
theorem Keeps.refl (T : List Int → Prop) (u : Int → K) : Keeps n ref level T u u := fun _ _ => rfl

omit [Field K] in
theorem Keeps.trans {T : List Int → Prop} {u u' u'' : Int → K} (h : Keeps n ref level T u u') (h' : Keeps n ref level T u' u'') :
    Keeps n ref level T u u'' := fun idx hi => (h' idx hi).trans (h idx hi)

omit [Field K] in
theorem Keeps.mono {T T' : List Int → Prop} (hT : ∀ g, T g → T' g) {u u' : Int → K} (h : Keeps n ref level T u u') : Keeps n ref level T' u u' :=
  fun idx hi => h idx fun g hg ht => hi g hg (hT g ht)

omit [Field K] in
theorem Keeps.at {T : List Int → Prop} {u u' : Int → K} (h : Keeps n ref level T u u') (hw : ref.WF n) (hd : ref.NumbersDiffer n) {p : List Int}
    (hp : ref.Mem n level p) (hT : ¬ T p) : u' (numOf n ref level p) = u (numOf n ref level p) :=
  h _ fun g hg ht he => hT (by rw [numOf_inj hw hd hp hg he]; exact ht)

/-- A pass of a boundary condition. -/
theorem pass_bc (hw : ref.WF n) (hd : ref.NumbersDiffer n) (h0 : K) {b : Box} {kd : BcKind} (hk : kd.Exists) {v : Nat → Int}
    {ps : List (List Int)} (hps : ps.Nodup) (hout : ∀ p ∈ ps, Outward n b p v)
    (hr : ∀ p ∈ ps, ∀ j : Int, - (kd.ghosts : Int) < j → j ≤ kd.ghosts → ref.Mem n level (walk n p j v)) (value : MCell → K) (u : Int → K) :
    Keeps n ref level (fun g => ∃ p ∈ ps, ∃ i : Nat, 1 ≤ i ∧ i ≤ kd.ghosts ∧ g = walk n p i v) u
      (ps.foldl (fun u p => kd.apply h0 u (lineCells n ref level kd.ghosts v p) (value (mcell n ref level p))) u) ∧
    ∀ p ∈ ps, ∀ i : Nat, 1 ≤ i → i ≤ kd.ghosts →
      ps.foldl (fun u p => kd.apply h0 u (lineCells n ref level kd.ghosts v p) (value (mcell n ref level p))) u (numOf n ref level (walk n p i v)) =
        kd.row h0 level i (value (mcell n ref level p)) fun j => u (numOf n ref level (walk n p ((j : Int) - kd.ghosts + 1) v)) := by
  have steps := fun p (hp : p ∈ ps) => kind_step (level := level) hw hd h0 hk (hout p hp).length (hout p hp).2.1.2 (hr p hp)
  have hk1 := hk.ghosts_pos
  have hrow : ∀ i : Nat, 1 ≤ i → i ≤ kd.ghosts → ∀ (x : K) (a a' : Nat → K), (∀ j < kd.ghosts, a j = a' j) → kd.row h0 level i x a = kd.row h0 level i x a' := by
    intro i i1 i2 x a a' h
    cases kd with
    | neumann => show _ + a 0 = _ + a' 0; rw [h 0 (by decide)]
    | dirichlet o =>
      have e : (BcKind.dirichlet o).ghosts = o := by show 2 * o / 2 = o; omega
      rw [e] at h i2
      exact dirichletRow_congr hk.1 hk.2 (by have := hk.1; omega) (by omega) x h
  have uniq : ∀ p ∈ ps, ∀ q ∈ ps, ∀ i j : Nat, 1 ≤ i → i ≤ kd.ghosts → 1 ≤ j → j ≤ kd.ghosts →
      numOf n ref level (walk n p i v) = numOf n ref level (walk n q j v) → p = q ∧ i = j := by
    intro p hp q hq i j i1 i2 j1 j2 h
    have := numOf_inj hw hd (hr p hp i (by omega) (by omega)) (hr q hq j (by omega) (by omega)) h
    obtain ⟨h1, _, h3⟩ := (hout p hp).unique (hout q hq) (by omega) (by omega) this
    exact ⟨h3, by omega⟩
  obtain ⟨f1, f2⟩ := foldl_pass (step := fun u p => kd.apply h0 u (lineCells n ref level kd.ghosts v p) (value (mcell n ref level p)))
    (W := fun p idx => ∃ i : Nat, 1 ≤ i ∧ i ≤ kd.ghosts ∧ idx = numOf n ref level (walk n p i v))
    (R := fun p idx => ∃ j : Nat, j < kd.ghosts ∧ idx = numOf n ref level (walk n p ((j : Int) - kd.ghosts + 1) v))
    (val := fun u p idx => kd.apply h0 u (lineCells n ref level kd.ghosts v p) (value (mcell n ref level p)) idx)
    (ps := ps) hps (by
      intro p hp u idx
      refine ⟨fun h => (steps p hp u _).1 idx fun i i1 i2 hi => h ⟨i, i1, i2, hi⟩, fun _ => rfl⟩)
    (by
      rintro p hp u u' hR idx ⟨i, i1, i2, rfl⟩
      rw [(steps p hp u _).2 i i1 i2, (steps p hp u' _).2 i i1 i2]
      exact hrow i i1 i2 _ _ _ fun j hj => hR _ ⟨j, hj, rfl⟩)
    (by
      rintro p hp q hq idx ⟨i, i1, i2, h1⟩ ⟨j, hj, h2⟩
      rw [h1] at h2
      have := numOf_inj hw hd (hr p hp i (by omega) (by omega)) (hr q hq _ (by omega) (by omega)) h2
      exact (hout p hp).inner (hout q hq) (by omega) (by omega) this)
    (by
      rintro p hp q hq hne idx ⟨i, i1, i2, h1⟩ ⟨j, j1, j2, h2⟩
      rw [h1] at h2
      exact hne (uniq p hp q hq i j i1 i2 j1 j2 h2).1) u
  refine ⟨fun idx hi => f1 idx ?_, fun p hp i i1 i2 => ?_⟩
  · rintro p hp ⟨i, i1, i2, h⟩
    exact hi _ (hr p hp i (by omega) (by omega)) ⟨p, hp, i, i1, i2, rfl⟩ h
  · rw [f2 p hp _ ⟨i, i1, i2, rfl⟩]
    exact (steps p hp u _).2 i i1 i2

/-- A pass of the polynomial extrapolation. -/
theorem pass_extrapolation (hw : ref.WF n) (hd : ref.NumbersDiffer n) {b : Box} {k : Nat} (hk : 1 ≤ k) (h3 : k ≤ 3) {v : Nat → Int}
    {ps : List (List Int)} (hps : ps.Nodup) (hout : ∀ p ∈ ps, Outward n b p v)
    (hr : ∀ p ∈ ps, ∀ j : Int, - (k : Int) < j → j ≤ k → ref.Mem n level (walk n p j v)) (u : Int → K) :
    Keeps n ref level (fun g => ∃ p ∈ ps, g = walk n p k v) u (ps.foldl (fun u p => applyExtrapolation (2 * k) u (lineCells n ref level k v p)) u) ∧
    ∀ p ∈ ps, ps.foldl (fun u p => applyExtrapolation (2 * k) u (lineCells n ref level k v p)) u (numOf n ref level (walk n p k v)) =
        extrapolationRow (2 * k) fun j => u (numOf n ref level (walk n p ((j : Int) - k + 1) v)) := by
  obtain ⟨f1, f2⟩ := foldl_pass (step := fun u p => applyExtrapolation (2 * k) u (lineCells n ref level k v p))
    (W := fun p idx => idx = numOf n ref level (walk n p k v))
    (R := fun p idx => ∃ j : Nat, j < 2 * k - 1 ∧ idx = numOf n ref level (walk n p ((j : Int) - k + 1) v))
    (val := fun u p _ => extrapolationRow (2 * k) fun j => u (numOf n ref level (walk n p ((j : Int) - k + 1) v)))
    (ps := ps) hps (by
      intro p hp u idx
      refine ⟨fun h => ?_, fun h => ?_⟩
      · show applyExtrapolation _ _ _ _ = _
        rw [extrapolation_step hk h3, if_neg h]
      · show applyExtrapolation _ _ _ _ = _
        rw [extrapolation_step hk h3, if_pos h])
    (by
      intro p hp u u' hR idx _
      exact extrapolationRow_congr hk h3 fun j hj => hR _ ⟨j, hj, rfl⟩)
    (by
      rintro p hp q hq idx h1 ⟨j, hj, h2⟩
      rw [h1] at h2
      have := numOf_inj hw hd (hr p hp k (by omega) (by omega)) (hr q hq _ (by omega) (by omega)) h2
      rcases le_or_gt ((j : Int) - k + 1) 0 with hle | hgt
      · exact (hout p hp).inner (hout q hq) (by omega) hle this
      · have := ((hout p hp).unique (hout q hq) (by omega) (by omega) this).1
        omega)
    (by
      intro p hp q hq hne idx h1 h2
      rw [h1] at h2
      have := numOf_inj hw hd (hr p hp k (by omega) (by omega)) (hr q hq k (by omega) (by omega)) h2
      exact hne ((hout p hp).unique (hout q hq) (by omega) (by omega) this).2.2) u
  refine ⟨fun idx hi => f1 idx ?_, fun p hp => f2 p hp _ rfl⟩
  intro p hp h
  exact hi _ (hr p hp k (by omega) (by omega)) ⟨p, hp, rfl⟩ h

end

end Samurai
