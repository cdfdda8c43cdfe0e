import Verif.Model.Mesh
import Verif.Lemmas.Range
import Verif.Props.Subset

namespace Samurai

/-! ### running a set expression -/

/-- Calls that can be added to a list: rows of the right dimension and valid plain intervals. -/
def OkCalls (n : Nat) (calls : List Call) : Prop :=
  ∀ c ∈ calls, c.1.length = n ∧ c.2.start < c.2.stop ∧ c.2.step = 1 ∧ c.2.index = 0

theorem runSet_ok {n : Nat} {e : Expr Node} (h : e.Admissible n) {ref : Nat} (hr : ref ≤ e.finest) :
    ∃ calls, runSet n e ref = some calls ∧ OkCalls n calls ∧ ∀ p, Covers calls p ↔ e.HoldsAt n ref p := by
  obtain ⟨calls, h1, h2⟩ := C15_on n e h ref
  obtain ⟨calls', h3, h4, h5⟩ := C16_canonical n e h ref hr
  rw [h1] at h3
  cases h3
  refine ⟨calls, h1, fun c hc => ⟨h5 c hc, h4.2 c hc⟩, fun p => ?_⟩
  rw [h2]
  unfold SetHolds
  rw [if_pos hr]

theorem runDefault_ok {n : Nat} {e : Expr Node} (h : e.Admissible n) :
    ∃ calls, runDefault n e = some calls ∧ OkCalls n calls ∧ ∀ p, Covers calls p ↔ e.HoldsAt n e.finest p := by
  unfold runDefault
  rw [C15_default n e h]
  exact runSet_ok h le_rfl

theorem lcaOfCalls_spec {n level : Nat} {calls : List Call} (h : OkCalls n calls) :
    (lcaOfCalls n level calls).WF n ∧ (lcaOfCalls n level calls).level = level ∧
      ∀ p, (lcaOfCalls n level calls).Mem n p ↔ Covers calls p := by
  have hi : ∀ c ∈ calls.map (fun c : Call => CellCall.interval c.1 c.2), c.idx.length = n := by
    intro c hc
    obtain ⟨c', hc', rfl⟩ := List.mem_map.1 hc
    exact (h c' hc').1
  have hv : ∀ c ∈ calls.map (fun c : Call => CellCall.interval c.1 c.2), c.Valid := by
    intro c hc
    obtain ⟨c', hc', rfl⟩ := List.mem_map.1 hc
    exact (h c' hc').2.1
  refine ⟨C06_wellformed n level _ hi hv, ?_, fun p => ?_⟩
  · unfold lcaOfCalls
    rw [ofList_level]
    exact (runCellCalls_spec n level _ hi).2.2.2.2
  · unfold lcaOfCalls
    rw [C06_content n level _ hi]
    unfold Covers
    constructor
    · rintro ⟨c, hc, ha⟩
      obtain ⟨c', hc', rfl⟩ := List.mem_map.1 hc
      obtain ⟨x, h1, h2, h3⟩ := ha
      exact ⟨c', hc', x, ⟨h1, h2⟩, h3⟩
    · rintro ⟨c, hc, x, hx, rfl⟩
      exact ⟨_, List.mem_map.2 ⟨c, hc, rfl⟩, x, hx.1, hx.2, rfl⟩

theorem OkCalls.length {n : Nat} {calls : List Call} (h : OkCalls n calls) {p : List Int} (hp : Covers calls p) :
    p.length = n + 1 := by
  obtain ⟨c, hc, x, _, rfl⟩ := hp
  simp [(h c hc).1]

/-! ### two meshes of the same level -/

/-- Coordinates of a level small enough for the sweep. -/
def LCA.Small (n : Nat) (L : LCA) (B : Int) : Prop := ∀ p, L.Mem n p → ∀ x ∈ p, x < B

theorem atLevel_up {l : Nat} (hl : 0 < l) {S : List Int → Prop} {p : List Int} :
    AtLevel l (l - 1) S p ↔ ∃ q, S q ∧ Anc 1 p q := by
  unfold AtLevel Anc
  rw [if_neg (by omega), show l - (l - 1) = 1 by omega]

theorem admissible_two {n : Nat} {o : Fn} {A B : LCA} {l : Nat} (hA : A.WF n) (hB : B.WF n) (lA : A.level = l)
    (lB : B.level = l) {K : Int} (sA : A.Small n K) (sB : B.Small n K) (hK : K + 2 < INT_MAX) :
    (Expr.op o (.leaf (.mesh A)) (.leaf (.mesh B))).Admissible n ∧
      (Expr.op o (.leaf (.mesh A)) (.leaf (.mesh B))).finest = l := by
  have hf : (Expr.op o (.leaf (.mesh A)) (.leaf (.mesh B))).finest = l := by
    simp only [Expr.finest, Node.level, lA, lB]
    exact Nat.max_self l
  refine ⟨⟨⟨hA, ?_⟩, ⟨hB, ?_⟩⟩, hf⟩
  · exact inRange_mesh hA sA (by rw [hf, lA, Nat.sub_self]; omega)
  · exact inRange_mesh hB sB (by rw [hf, lB, Nat.sub_self]; omega)

theorem runSet_two {n : Nat} {o : Fn} {A B : LCA} {l : Nat} (hA : A.WF n) (hB : B.WF n) (lA : A.level = l)
    (lB : B.level = l) {K : Int} (sA : A.Small n K) (sB : B.Small n K) (hK : K + 2 < INT_MAX) {ref : Nat} (hr : ref ≤ l) :
    ∃ calls, runSet n (.op o (.leaf (.mesh A)) (.leaf (.mesh B))) ref = some calls ∧ OkCalls n calls ∧
      ∀ p, Covers calls p ↔ (Expr.op o (.leaf (.mesh A)) (.leaf (.mesh B))).HoldsAt n ref p := by
  obtain ⟨h1, h2⟩ := admissible_two (o := o) hA hB lA lB sA sB hK
  exact runSet_ok h1 (by omega)

theorem runDefault_two {n : Nat} {o : Fn} {A B : LCA} {l : Nat} (hA : A.WF n) (hB : B.WF n) (lA : A.level = l)
    (lB : B.level = l) {K : Int} (sA : A.Small n K) (sB : B.Small n K) (hK : K + 2 < INT_MAX) :
    ∃ calls, runDefault n (.op o (.leaf (.mesh A)) (.leaf (.mesh B))) = some calls ∧ OkCalls n calls ∧
      ∀ p, Covers calls p ↔ (Expr.op o (.leaf (Node.mesh A)) (.leaf (Node.mesh B))).Holds fun (N : Node) => N.Holds n p := by
  obtain ⟨h1, h2⟩ := admissible_two (o := o) hA hB lA lB sA sB hK
  obtain ⟨calls, g1, g2, g3⟩ := runDefault_ok h1
  refine ⟨calls, g1, g2, fun p => (g3 p).trans ?_⟩
  rw [h2]
  unfold Expr.HoldsAt
  refine Expr.holds_all_congr ?_
  refine ⟨?_, ?_⟩
  · show AtLevel A.level l _ p ↔ _
    rw [lA]; exact atLevel_self
  · show AtLevel B.level l _ p ↔ _
    rw [lB]; exact atLevel_self

/-! ### growing -/

theorem mem_zip_nested {w : Nat} {yz r : List Int} :
    (∃ st ∈ nestedIndices (2 * w + 1) yz.length, r = List.zipWith (fun y s => y + (s - (w : Int))) yz st) ↔ Near w r yz := by
  unfold Near
  constructor
  · rintro ⟨st, hst, rfl⟩
    obtain ⟨h1, h2⟩ := mem_nestedIndices.1 hst
    clear hst
    induction yz generalizing st with
    | nil => simp
    | cons y yz ih =>
      cases st with
      | nil => simp at h1
      | cons s st =>
        rw [List.zipWith_cons_cons]
        refine List.Forall₂.cons ?_ (ih st (by simpa using h1) fun s hs => h2 s (List.mem_cons_of_mem _ hs))
        have := h2 s List.mem_cons_self
        push_cast at this
        omega
  · intro h
    induction h with
    | nil => exact ⟨[], by simp [nestedIndices], rfl⟩
    | @cons a b r yz hab _ ih =>
      obtain ⟨st, hst, rfl⟩ := ih
      refine ⟨(a - b + w) :: st, ?_, ?_⟩
      · rw [mem_nestedIndices] at hst ⊢
        refine ⟨by simp [hst.1], ?_⟩
        intro s hs
        rcases List.mem_cons.1 hs with rfl | hs
        · push_cast; omega
        · exact hst.2 s hs
      · rw [List.zipWith_cons_cons]
        congr 1
        omega

theorem forall₂_snoc_snoc {R : Int → Int → Prop} {r yz : List Int} {x y : Int} :
    List.Forall₂ R (r ++ [x]) (yz ++ [y]) ↔ List.Forall₂ R r yz ∧ R x y := by
  induction r generalizing yz with
  | nil =>
    cases yz with
    | nil => simp
    | cons b yz => simp
  | cons a r ih =>
    cases yz with
    | nil => simp
    | cons b yz =>
      simp only [List.cons_append, List.forall₂_cons, ih, and_assoc]

theorem near_append {w : Nat} {r yz : List Int} {x y : Int} :
    Near w (r ++ [x]) (yz ++ [y]) ↔ Near w r yz ∧ x ≤ y + w ∧ y ≤ x + w := forall₂_snoc_snoc

/-- The cells added by `grow`: those at distance at most `w` of a cell of the interval. -/
theorem grow_adds {w : Nat} {yz : List Int} {i : Interval} (hv : i.start < i.stop) {p : List Int} :
    (∃ c ∈ grow w yz i, c.Adds p) ↔ ∃ x ∈ i, Near w p (yz ++ [x]) := by
  unfold grow
  constructor
  · rintro ⟨c, hc, ha⟩
    obtain ⟨st, hst, rfl⟩ := List.mem_map.1 hc
    obtain ⟨x, h1, h2, rfl⟩ := ha
    have hn : Near w _ yz := mem_zip_nested.1 ⟨st, hst, rfl⟩
    simp only [Interval.mk'] at h1 h2
    by_cases hx : x < i.start
    · exact ⟨i.start, ⟨le_rfl, hv⟩, near_append.2 ⟨hn, by omega, by omega⟩⟩
    · by_cases hx' : x < i.stop
      · exact ⟨x, ⟨by omega, hx'⟩, near_append.2 ⟨hn, by omega, by omega⟩⟩
      · exact ⟨i.stop - 1, Interval.mem_def.2 ⟨by omega, by omega⟩, near_append.2 ⟨hn, by omega, by omega⟩⟩
  · rintro ⟨x, hx, hn⟩
    have hl : p.length = yz.length + 1 := by
      have := hn.length_eq
      simpa using this
    obtain ⟨r, y, rfl⟩ : ∃ r y, p = r ++ [y] := by
      rcases List.eq_nil_or_concat p with rfl | ⟨r, y, rfl⟩
      · simp at hl
      · exact ⟨r, y, by simp⟩
    obtain ⟨h1, h2, h3⟩ := near_append.1 hn
    obtain ⟨st, hst, hr⟩ := mem_zip_nested.2 h1
    refine ⟨_, List.mem_map.2 ⟨st, hst, rfl⟩, y, ?_, ?_, by rw [hr]⟩
    · have := Interval.mem_def.1 hx
      simp only [Interval.mk']; omega
    · have := Interval.mem_def.1 hx
      simp only [Interval.mk']; omega

theorem grow_idx {w : Nat} {yz : List Int} {i : Interval} {c : CellCall} (hc : c ∈ grow w yz i) :
    c.idx.length = yz.length := by
  obtain ⟨st, hst, rfl⟩ := List.mem_map.1 hc
  have := (mem_nestedIndices.1 hst).1
  simp [CellCall.idx, this]

theorem grow_valid {w : Nat} {yz : List Int} {i : Interval} (hv : i.start < i.stop) {c : CellCall}
    (hc : c ∈ grow w yz i) : c.Valid := by
  obtain ⟨st, hst, rfl⟩ := List.mem_map.1 hc
  show i.start - w < i.stop + w
  omega

end Samurai

namespace Samurai

/-! ### ancestors -/

theorem anc_iff {k : Nat} {p q : List Int} : Anc k p q ↔ p = q.map fun c => shr c k := forall₂_ancestor

theorem map_shr_add (q : List Int) (j k : Nat) :
    (q.map fun c => shr c j).map (fun c => shr c k) = q.map fun c => shr c (j + k) := by
  rw [List.map_map]
  apply List.map_congr_left
  intro c _
  exact shr_shr c j k

theorem anc_zero {p q : List Int} : Anc 0 p q ↔ p = q := by
  rw [anc_iff]
  have : (q.map fun c => shr c 0) = q := by
    conv_rhs => rw [← List.map_id q]
    apply List.map_congr_left
    intro c _
    simp [shr]
  rw [this]

theorem anc_trans {j k : Nat} {p q r : List Int} (h1 : Anc j p q) (h2 : Anc k q r) : Anc (j + k) p r := by
  rw [anc_iff] at *
  rw [h1, h2, map_shr_add, Nat.add_comm]

theorem anc_split {j k : Nat} {p r : List Int} (h : Anc (j + k) p r) : ∃ q, Anc j p q ∧ Anc k q r := by
  refine ⟨r.map fun c => shr c k, ?_, anc_iff.2 rfl⟩
  rw [anc_iff] at *
  rw [h, map_shr_add, Nat.add_comm]

theorem anc_unique {k : Nat} {p p' q : List Int} (h1 : Anc k p q) (h2 : Anc k p' q) : p = p' := by
  rw [anc_iff] at *
  rw [h1, h2]

theorem anc_length {k : Nat} {p q : List Int} (h : Anc k p q) : p.length = q.length := h.length_eq

theorem anc_below {k m : Nat} {p q : List Int} {D : Int} (h : Anc k p q) (hq : ∀ x ∈ q, x * 2 ^ m < D) :
    ∀ x ∈ p, x * 2 ^ (m + k) < D := by
  induction h with
  | nil => simp
  | @cons a b p q hab _ ih =>
    intro x hx
    rcases List.mem_cons.1 hx with rfl | hx
    · have h1 := hq b List.mem_cons_self
      have h2 : x * 2 ^ k ≤ b := hab.1
      have h3 := pow_two_pos m
      have h4 : x * 2 ^ k * 2 ^ m ≤ b * 2 ^ m := Int.mul_le_mul_of_nonneg_right h2 (le_of_lt h3)
      rw [pow_add, mul_comm (2 ^ m : Int), ← mul_assoc]
      omega
    · exact ih (fun y hy => hq y (List.mem_cons_of_mem _ hy)) x hx

/-! ### loops on levels -/

theorem downFrom_cons {hi lo : Nat} (hlo : 1 ≤ lo) (h : lo ≤ hi) : downFrom hi lo = hi :: downFrom (hi - 1) lo := by
  unfold downFrom
  rw [show hi + 1 - lo = (hi - 1 + 1 - lo) + 1 by omega, List.range'_concat, List.reverse_append]
  simp only [List.reverse_cons, List.reverse_nil, List.nil_append, List.singleton_append, Nat.one_mul]
  congr 1
  omega

theorem downFrom_nil {hi lo : Nat} (h : hi < lo) : downFrom hi lo = [] := by
  unfold downFrom
  rw [show hi + 1 - lo = 0 by omega]
  rfl

theorem foldDown {σ : Type} (f : σ → Nat → Option σ) (I : Nat → σ → Prop) (lo top : Nat) (hlo : 1 ≤ lo)
    (step : ∀ k s, lo ≤ k → k ≤ top → I k s → ∃ s', f s k = some s' ∧ I (k - 1) s') :
    ∀ hi s, hi ≤ top → I hi s → ∃ s', (downFrom hi lo).foldlM f s = some s' ∧ I (min hi (lo - 1)) s' := by
  intro hi
  induction hi with
  | zero =>
    intro s _ h
    rw [downFrom_nil (by omega)]
    exact ⟨s, rfl, by rw [Nat.zero_min]; exact h⟩
  | succ hi ih =>
    intro s htop h
    by_cases hlt : hi + 1 < lo
    · rw [downFrom_nil hlt]
      exact ⟨s, rfl, by rw [min_eq_left (by omega)]; exact h⟩
    · rw [downFrom_cons hlo (by omega)]
      obtain ⟨s', h1, h2⟩ := step (hi + 1) s (by omega) htop h
      obtain ⟨s'', h3, h4⟩ := ih s' (by omega) h2
      refine ⟨s'', ?_, ?_⟩
      · rw [List.foldlM_cons, h1]
        exact h3
      · rwa [show min (hi + 1) (lo - 1) = min hi (lo - 1) by omega]

theorem foldUp {σ : Type} (f : σ → Nat → Option σ) (I : Nat → σ → Prop) (m : Nat)
    (step : ∀ k s, k < m → I k s → ∃ s', f s k = some s' ∧ I (k + 1) s') :
    ∀ s, I 0 s → ∃ s', (List.range m).foldlM f s = some s' ∧ I m s' := by
  induction m with
  | zero => intro s h; exact ⟨s, rfl, h⟩
  | succ m ih =>
    intro s h
    obtain ⟨s', h1, h2⟩ := ih (fun k s hk => step k s (by omega)) s h
    obtain ⟨s'', h3, h4⟩ := step m s' (by omega) h2
    refine ⟨s'', ?_, h4⟩
    rw [List.range_succ, List.foldlM_append, h1]
    simp [h3]

/-! ### setting a level -/

theorem CA.set_wf {n : Nat} {c : CA} (h : c.WF n) {l : Nat} {L : LCA} (hL : L.WF n) : (c.set l L).WF n := by
  intro k hk
  show (Function.update c.lca l L k).WF n
  by_cases hkl : k = l
  · subst hkl; simpa using hL
  · rw [Function.update_of_ne hkl]; exact h k hk

theorem CA.set_leveled {c : CA} (h : c.Leveled) {l : Nat} {L : LCA} (hL : L.level = l) : (c.set l L).Leveled := by
  intro k hk
  show (Function.update c.lca l L k).level = k
  by_cases hkl : k = l
  · subst hkl; simpa using hL
  · rw [Function.update_of_ne hkl]; exact h k hk

theorem CA.set_same (c : CA) (l : Nat) (L : LCA) : (c.set l L).lca l = L := by simp [CA.set]

theorem CA.set_ne (c : CA) {l k : Nat} (h : k ≠ l) (L : LCA) : (c.set l L).lca k = c.lca k := by
  simp [CA.set, Function.update_of_ne h]

theorem CA.Below.small {n : Nat} {c : CA} {M : Nat} {D : Int} (h : c.Below n M D) (hD : 0 ≤ D) {l : Nat}
    (hl : l ≤ c.maxSize) : (c.lca l).Small n D := by
  intro p hp x hx
  have h1 := h l p ⟨hl, hp⟩ x hx
  have h2 := pow_two_pos (M - l)
  by_contra hlt
  have : x * 1 ≤ x * 2 ^ (M - l) := Int.mul_le_mul_of_nonneg_left (by omega) (by omega)
  omega

/-! ### the union meshes -/

theorem coveredBy_pred {n : Nat} {cells : CA} {l : Nat} (hl : 0 < l) {p : List Int} :
    CoveredBy n cells (l - 1) p ↔ ∃ q, (cells.Mem n l q ∨ CoveredBy n cells l q) ∧ Anc 1 p q := by
  constructor
  · rintro ⟨l', r, h1, h2, h3⟩
    rw [show l' - (l - 1) = 1 + (l' - l) by omega] at h3
    obtain ⟨q, g1, g2⟩ := anc_split h3
    rcases Nat.lt_or_ge l l' with h | h
    · exact ⟨q, Or.inr ⟨l', r, h, h2, g2⟩, g1⟩
    · obtain rfl : l' = l := by omega
      rw [Nat.sub_self, anc_zero] at g2
      subst g2
      exact ⟨q, Or.inl h2, g1⟩
  · rintro ⟨q, h | ⟨l', r, h1, h2, h3⟩, g⟩
    · exact ⟨l, q, by omega, h, by rwa [show l - (l - 1) = 1 by omega]⟩
    · refine ⟨l', r, by omega, h2, ?_⟩
      rw [show l' - (l - 1) = 1 + (l' - l) by omega]
      exact anc_trans g h3

theorem coveredBy_below {n : Nat} {cells : CA} {M : Nat} {D : Int} (hb : cells.Below n M D)
    (hM : ∀ l p, cells.Mem n l p → l ≤ M) {l : Nat} {p : List Int} (h : CoveredBy n cells l p) :
    ∀ x ∈ p, x * 2 ^ (M - l) < D := by
  obtain ⟨l', q, h1, h2, h3⟩ := h
  have := anc_below h3 (hb l' q h2)
  have hle := hM l' q h2
  rwa [show M - l' + (l' - l) = M - l by omega] at this

/-- What is known of the union meshes. -/
structure UnionOK (n : Nat) (cells u : CA) (minL : Nat) : Prop where
  size : u.maxSize = cells.maxSize
  wf : u.WF n
  leveled : u.Leveled
  mem : ∀ l p, u.Mem n l p ↔ minL ≤ l + 1 ∧ CoveredBy n cells l p

theorem constructUnion_spec {n : Nat} {cells : CA} {minL maxL : Nat} (hw : cells.WF n) (hl : cells.Leveled)
    (hb : cells.Between n minL maxL) (hmax : maxL ≤ cells.maxSize) {D : Int} (hD0 : 0 ≤ D) (hD : D + 2 < INT_MAX)
    (hbl : cells.Below n maxL D) :
    ∃ u, constructUnion n cells minL maxL = some u ∧ UnionOK n cells u minL := by
  obtain ⟨e1, e2, e3, e4⟩ := empty_spec n cells.maxSize
  have hM : ∀ l p, cells.Mem n l p → l ≤ maxL := fun l p h => (hb l p h).2
  let I : Nat → CA → Prop := fun k u => u.maxSize = cells.maxSize ∧ u.WF n ∧ u.Leveled ∧
    (∀ l p, k ≤ l → l ≤ cells.maxSize → ((u.lca l).Mem n p ↔ CoveredBy n cells l p)) ∧
    ∀ l p, l < k → ¬ (u.lca l).Mem n p
  have hnew := empty_spec n maxL
  have h0 : I maxL ((CA.empty n cells.maxSize).set maxL (LCA.ofList (LCL.new n maxL))) := by
    have hne : ∀ l p, ¬ (((CA.empty n cells.maxSize).set maxL (LCA.ofList (LCL.new n maxL))).lca l).Mem n p := by
      intro l p
      by_cases h : l = maxL
      · subst h
        rw [CA.set_same]
        exact hnew.2.2.2 l p
      · rw [CA.set_ne _ h]
        exact e4 l p
    refine ⟨e1, CA.set_wf e2 (hnew.2.1 maxL le_rfl), CA.set_leveled e3 (hnew.2.2.1 maxL le_rfl), ?_, fun l p _ => hne l p⟩
    intro l p h1 h2
    refine ⟨fun h => absurd h (hne l p), ?_⟩
    rintro ⟨l', q, h3, h4, _⟩
    have := hM l' q h4
    omega
  have hlo : 1 ≤ (if minL = 0 then 1 else minL) := by split <;> omega
  obtain ⟨u, h1, i1, i2, i3, i4, i5⟩ := foldDown (unionStep n cells) I _ maxL hlo (by
    rintro k s hk hkm ⟨i1, i2, i3, i4, i5⟩
    have hk0 : 0 < k := by omega
    by_cases hks : k ≤ cells.maxSize
    · have sA : (cells.lca k).Small n D := hbl.small hD0 hks
      have sB : (s.lca k).Small n D := by
        intro p hp x hx
        have h1 := coveredBy_below hbl hM ((i4 k p le_rfl hks).1 hp) x hx
        have h2 := pow_two_pos (maxL - k)
        by_contra hlt
        have : x * 1 ≤ x * 2 ^ (maxL - k) := Int.mul_le_mul_of_nonneg_left (by omega) (by omega)
        omega
      obtain ⟨calls, c1, c2, c3⟩ := runSet_two (o := .union) (hw k hks) (i2 k (by omega)) (hl k hks)
        (i3 k (by omega)) sA sB hD (ref := k - 1) (by omega)
      obtain ⟨w1, w2, w3⟩ := lcaOfCalls_spec (level := k - 1) c2
      refine ⟨s.set (k - 1) (lcaOfCalls n (k - 1) calls), ?_, i1, CA.set_wf i2 w1, CA.set_leveled i3 w2, ?_, ?_⟩
      · unfold unionStep
        rw [c1]
      · intro l p hl1 hl2
        by_cases hlk : l = k - 1
        · subst hlk
          rw [CA.set_same, w3, c3, coveredBy_pred hk0]
          show (AtLevel (cells.lca k).level (k - 1) ((cells.lca k).Mem n) p ∨
            AtLevel (s.lca k).level (k - 1) ((s.lca k).Mem n) p) ↔ _
          rw [hl k hks, i3 k (by omega), atLevel_up hk0, atLevel_up hk0]
          constructor
          · rintro (⟨q, h1, h2⟩ | ⟨q, h1, h2⟩)
            · exact ⟨q, Or.inl ⟨hks, h1⟩, h2⟩
            · exact ⟨q, Or.inr ((i4 k q le_rfl hks).1 h1), h2⟩
          · rintro ⟨q, h1 | h1, h2⟩
            · exact Or.inl ⟨q, h1.2, h2⟩
            · exact Or.inr ⟨q, (i4 k q le_rfl hks).2 h1, h2⟩
        · rw [CA.set_ne _ hlk]
          exact i4 l p (by omega) hl2
      · intro l p hlk
        rw [CA.set_ne _ (by omega)]
        exact i5 l p (by omega)
    · exact absurd hks (by omega)) maxL _ le_rfl h0
  refine ⟨u, h1, i1, i2, i3, fun l p => ?_⟩
  unfold CA.Mem
  rw [i1]
  have hlo' : (if minL = 0 then 1 else minL) - 1 = minL - 1 := by split <;> omega
  rw [hlo'] at i4 i5
  constructor
  · rintro ⟨g1, g2⟩
    by_cases hlt : l < min maxL (minL - 1)
    · exact absurd g2 (i5 l p hlt)
    · have hc := (i4 l p (by omega) g1).1 g2
      refine ⟨?_, hc⟩
      obtain ⟨l', q, c1, c2, _⟩ := hc
      have := hM l' q c2
      omega
  · rintro ⟨g1, g2⟩
    have hls : l ≤ cells.maxSize := by
      obtain ⟨l', q, c1, c2, _⟩ := g2
      have := hM l' q c2
      omega
    exact ⟨hls, (i4 l p (by omega) hls).2 g2⟩

end Samurai
