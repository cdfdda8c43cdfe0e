/- Lemmas about the finite volume expressions of fields. -/
import Verif.Spec.StencilField
import Verif.Lemmas.Field
import Verif.Lemmas.GhostOps
import Mathlib.Algebra.BigOperators.Group.List.Basic

namespace Samurai

variable {K : Type} [Field K] {n : Nat} {ref : CA}

/-- A row read at the position `s`. -/
theorem shiftedRow_ok (hw : ref.WF n) (u : Int → K) (s : Nat → Int) {l : Nat} {yz : List Int} (hl : yz.length = n) {i : Interval} (hv : i.start < i.stop) (hs : i.step = 1)
    (hin : ∀ x ∈ i, ref.Mem n l (shiftPoint s n (yz ++ [x]))) :
    ∃ g, shiftedRow n ref u s l yz i = some g ∧ ∀ k : Nat, i.start + (k : Int) < i.stop → g k = u (numOf n ref l (shiftPoint s n (yz ++ [i.start + (k : Int)]))) := by
  have e1 : (i.addRight (s 0)).start = i.start + s 0 := rfl
  have e2 : (i.addRight (s 0)).stop = i.stop + s 0 := rfl
  have e3 : (i.addRight (s 0)).step = i.step := rfl
  obtain ⟨r, h1, h2⟩ := fieldInterval_ok hw (l := l) (yz := shiftPoint s n yz) (I := i.addRight (s 0)) (by omega) (fun y a b => by
    have := hin (y - s 0) (Interval.mem_def.2 ⟨by omega, by omega⟩)
    rw [shift_snoc' hl] at this
    rwa [show y - s 0 + s 0 = y from by omega] at this)
  refine ⟨_, by unfold shiftedRow; rw [h1]; rfl, fun k hk => ?_⟩
  rw [shift_snoc' hl, h2 _ (by omega) (by omega)]
  show u (r.index + (i.start + s 0) + (k : Int)) = _
  congr 1; omega

variable (F : Nat → K → K → K)

/-- What the expression is made of in a cell, before the division by the length of the cell. -/
def fvSum (n : Nat) (F : Nat → K → K → K) (f : List Int → K) (p : List Int) (ds : List Nat) : K :=
  (ds.map fun d => - F d (f (before n d p)) (f p) + F d (f p) (f (after n d p))).sum

theorem fvDirs_ok (hw : ref.WF n) (u : Int → K) {l : Nat} {yz : List Int} (hl : yz.length = n) {i : Interval} (hv : i.start < i.stop) (hs : i.step = 1)
    (h0 : ∀ x ∈ i, ref.Mem n l (yz ++ [x])) : ∀ (ds : List Nat) (acc : Nat → K),
    (∀ d ∈ ds, ∀ x ∈ i, ref.Mem n l (after n d (yz ++ [x])) ∧ ref.Mem n l (before n d (yz ++ [x]))) →
    ∃ g, ds.foldlM (fun (acc : Nat → K) d => (fvDirection n (F d) ref u d l yz i).map fun g k => acc k + g k) acc = some g ∧
      ∀ k : Nat, i.start + (k : Int) < i.stop → g k = acc k + fvSum n F (fun p => u (numOf n ref l p)) (yz ++ [i.start + (k : Int)]) ds
  | [], acc, _ => ⟨acc, rfl, fun k _ => by simp [fvSum]⟩
  | d :: ds, acc, hin => by
    obtain ⟨b, b1, b2⟩ := shiftedRow_ok hw u (fun k => - unitDir d k) (l := l) hl hv hs (fun x hx => (hin d List.mem_cons_self x hx).2)
    obtain ⟨c, c1, c2⟩ := shiftedRow_ok hw u (fun _ => 0) (l := l) hl hv hs (fun x hx => by rw [shift_zero]; exact h0 x hx)
    obtain ⟨a, a1, a2⟩ := shiftedRow_ok hw u (unitDir d) (l := l) hl hv hs (fun x hx => (hin d List.mem_cons_self x hx).1)
    obtain ⟨g, g1, g2⟩ := fvDirs_ok hw u hl hv hs h0 ds (fun k => acc k + (- F d (b k) (c k) + F d (c k) (a k))) (fun d' hd' => hin d' (List.mem_cons_of_mem _ hd'))
    refine ⟨g, ?_, fun k hk => ?_⟩
    · have e : fvDirection n (F d) ref u d l yz i = some fun k => - F d (b k) (c k) + F d (c k) (a k) := by
        unfold fvDirection
        rw [b1, c1, a1]
      rw [List.foldlM_cons, e]
      exact g1
    · rw [g2 k hk, b2 k hk, c2 k hk, a2 k hk, shift_zero]
      simp only [fvSum, List.map_cons, List.sum_cons, after, before]
      ring

/-- The value of the expression in a cell. -/
theorem fvOperator_ok (hw : ref.WF n) (scaling : K) (u : Int → K) {l : Nat} {yz : List Int} (hl : yz.length = n) {i : Interval} (hv : i.start < i.stop) (hs : i.step = 1)
    (h0 : ∀ x ∈ i, ref.Mem n l (yz ++ [x])) (hin : ∀ d ≤ n, ∀ x ∈ i, ref.Mem n l (after n d (yz ++ [x])) ∧ ref.Mem n l (before n d (yz ++ [x]))) :
    ∃ g, fvOperator n F scaling ref u l yz i = some g ∧
      ∀ k : Nat, i.start + (k : Int) < i.stop → g k = fvSum n F (fun p => u (numOf n ref l p)) (yz ++ [i.start + (k : Int)]) (List.range (n + 1)) / cellLength scaling l := by
  obtain ⟨g, g1, g2⟩ := fvDirs_ok F hw u hl hv hs h0 (List.range (n + 1)) (fun _ => 0) (fun d hd => hin d (by have := List.mem_range.1 hd; omega))
  refine ⟨_, by unfold fvOperator; rw [g1]; rfl, fun k hk => ?_⟩
  simp only [g2 k hk, zero_add]

theorem fvSum_eq (f : List Int → K) (p : List Int) :
    fvSum n F f p (List.range (n + 1)) = ∑ d ∈ Finset.range (n + 1), (F d (f p) (f (after n d p)) - F d (f (before n d p)) (f p)) := by
  unfold fvSum
  rw [← List.sum_toFinset _ List.nodup_range, List.toFinset_range]
  exact Finset.sum_congr rfl fun d _ => by ring

/-- One row of the assignment. -/
theorem fvRow_ok (hw : ref.WF n) (scaling dt : K) (s t : Nat) (env : Nat → Int → K) {l : Nat} {yz : List Int} (hl : yz.length = n) {i : Interval} (hv : i.start < i.stop) (hs : i.step = 1)
    (h0 : ∀ x ∈ i, ref.Mem n l (yz ++ [x])) (hin : ∀ d ≤ n, ∀ x ∈ i, ref.Mem n l (after n d (yz ++ [x])) ∧ ref.Mem n l (before n d (yz ++ [x]))) :
    ∃ env', fvRow n F scaling dt ref s t env l yz i = some env' ∧ (∀ k, k ≠ t → env' k = env k) ∧
      (∀ x ∈ i, env' t (numOf n ref l (yz ++ [x])) = fvUpdate n F (cellLength scaling l) dt (fun p => env s (numOf n ref l p)) (yz ++ [x])) ∧
      ∀ v, (∀ x ∈ i, v ≠ numOf n ref l (yz ++ [x])) → env' t v = env t v := by
  obtain ⟨c, c1, c2⟩ := shiftedRow_ok hw (env s) (fun _ => 0) (l := l) hl hv hs (fun x hx => by rw [shift_zero]; exact h0 x hx)
  obtain ⟨g, g1, g2⟩ := fvOperator_ok F hw scaling (env s) hl hv hs h0 hin
  obtain ⟨r, r1, r2⟩ := fieldInterval_ok hw (l := l) (yz := yz) (I := i) (by omega) (fun y a b => h0 y (Interval.mem_def.2 ⟨a, by omega⟩))
  refine ⟨_, by unfold fvRow; rw [c1, g1, r1], fun k hk => Function.update_of_ne hk _ _, fun x hx => ?_, fun v hv => ?_⟩
  · have hx := Interval.mem_def.1 hx
    have e : ((r.index + x - r.index - i.start).toNat : Int) = x - i.start := by omega
    have e' : i.start + ((r.index + x - r.index - i.start).toNat : Int) = x := by omega
    rw [Function.update_self, r2 x (by omega) (by omega), if_pos ⟨by omega, by omega⟩, c2 _ (by omega), g2 _ (by omega), shift_zero, e', fvSum_eq]
    unfold fvUpdate
    ring
  · rw [Function.update_self]
    refine if_neg fun hh => hv (v - r.index) (Interval.mem_def.2 ⟨by omega, by omega⟩) ?_
    rw [r2 _ (by omega) (by omega)]; omega

/-- The loop over the rows. -/
theorem fvRows_ok (hw : ref.WF n) (hd : ref.NumbersDiffer n) (scaling dt : K) {s t : Nat} (hst : s ≠ t) : ∀ (rs : List (Nat × List Int × Interval)) (env : Nat → Int → K),
    (rs.Pairwise fun e e' => ∀ x ∈ e.2.2, ∀ y ∈ e'.2.2, ¬ (e.1 = e'.1 ∧ e.2.1 ++ [x] = e'.2.1 ++ [y])) →
    (∀ r ∈ rs, r.2.1.length = n ∧ r.2.2.start < r.2.2.stop ∧ r.2.2.step = 1) → (∀ r ∈ rs, ∀ x ∈ r.2.2, ref.Mem n r.1 (r.2.1 ++ [x])) →
    (∀ r ∈ rs, ∀ d ≤ n, ∀ x ∈ r.2.2, ref.Mem n r.1 (after n d (r.2.1 ++ [x])) ∧ ref.Mem n r.1 (before n d (r.2.1 ++ [x]))) →
    ∃ env', rs.foldl (fun (st : Option (Nat → Int → K)) r => st.bind fun env => fvRow n F scaling dt ref s t env r.1 r.2.1 r.2.2) (some env) = some env' ∧
      (∀ k, k ≠ t → env' k = env k) ∧
      (∀ r ∈ rs, ∀ x ∈ r.2.2, env' t (numOf n ref r.1 (r.2.1 ++ [x])) =
        fvUpdate n F (cellLength scaling r.1) dt (fun p => env s (numOf n ref r.1 p)) (r.2.1 ++ [x])) ∧
      ∀ v, (∀ r ∈ rs, ∀ x ∈ r.2.2, v ≠ numOf n ref r.1 (r.2.1 ++ [x])) → env' t v = env t v
  | [], env, _, _, _, _ => ⟨env, rfl, fun _ _ => rfl, by simp, fun _ _ => rfl⟩
  | r :: rs, env, hp, hv, h0, hin => by
    obtain ⟨hp0, hp⟩ := List.pairwise_cons.1 hp
    obtain ⟨env1, a1, a2, a3, a4⟩ := fvRow_ok F hw scaling dt s t env (l := r.1) (hv r List.mem_cons_self).1 (hv r List.mem_cons_self).2.1 (hv r List.mem_cons_self).2.2
      (h0 r List.mem_cons_self) (hin r List.mem_cons_self)
    obtain ⟨env', b1, b2, b3, b4⟩ := fvRows_ok hw hd scaling dt hst rs env1 hp (fun r hr => hv r (List.mem_cons_of_mem _ hr)) (fun r hr => h0 r (List.mem_cons_of_mem _ hr))
      (fun r hr => hin r (List.mem_cons_of_mem _ hr))
    refine ⟨env', ?_, fun k hk => (b2 k hk).trans (a2 k hk), fun r' hr' x hx => ?_, fun v h => ?_⟩
    · rw [List.foldl_cons, Option.bind_some, a1]; exact b1
    · rcases List.mem_cons.1 hr' with rfl | hr'
      · rw [b4 _ fun r2 hr2 y hy hh => ?_, a3 x hx]
        exact hp0 r2 hr2 x hx y hy (numOf_level hw hd (h0 r' List.mem_cons_self x hx) (h0 r2 (List.mem_cons_of_mem _ hr2) y hy) hh)
      · rw [b3 r' hr' x hx, a2 s hst]
    · rw [b4 v fun r2 hr2 => h r2 (List.mem_cons_of_mem _ hr2), a4 v (h r List.mem_cons_self)]

end Samurai
