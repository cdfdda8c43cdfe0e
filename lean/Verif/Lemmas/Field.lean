/- Lemmas about the expressions of fields. -/
import Verif.Spec.Field
import Verif.Lemmas.GhostRow
import Verif.Lemmas.CellList
import Verif.Lemmas.FluxScheme

namespace Samurai

/-! ### arrays -/

theorem bcast_nil_right (s : List Nat) : bcast s [] = some s := by cases s <;> rfl

/-- Shapes that are prefixes of the same shape can be combined. -/
theorem bcast_prefix : ∀ {full s t : List Nat}, s <+: full → t <+: full → ∃ r, bcast s t = some r ∧ s <+: r ∧ t <+: r ∧ r <+: full
  | full, [], t, _, ht => ⟨t, rfl, List.nil_prefix, List.prefix_rfl, ht⟩
  | full, a :: s, [], hs, _ => ⟨a :: s, rfl, List.prefix_rfl, List.nil_prefix, hs⟩
  | [], a :: s, b :: t, hs, _ => by simp at hs
  | c :: full, a :: s, b :: t, hs, ht => by
    obtain ⟨rfl, hs'⟩ := List.cons_prefix_cons.1 hs
    obtain ⟨rfl, ht'⟩ := List.cons_prefix_cons.1 ht
    obtain ⟨r, h1, h2, h3, h4⟩ := bcast_prefix hs' ht'
    refine ⟨b :: r, ?_, List.cons_prefix_cons.2 ⟨rfl, h2⟩, List.cons_prefix_cons.2 ⟨rfl, h3⟩, List.cons_prefix_cons.2 ⟨rfl, h4⟩⟩
    simp only [bcast, h1, true_or, if_true]

theorem bcast_full : ∀ {full s : List Nat}, s <+: full → bcast s full = some full
  | full, [], _ => rfl
  | [], a :: s, hs => by simp at hs
  | c :: full, a :: s, hs => by
    obtain ⟨rfl, hs'⟩ := List.cons_prefix_cons.1 hs
    simp only [bcast, bcast_full hs', true_or, if_true]

theorem pick_pick : ∀ {s t : List Nat}, t <+: s → ∀ idx, pick t (pick s idx) = pick t idx
  | s, [], _, idx => by simp [pick]
  | [], b :: t, h, _ => by simp at h
  | a :: s, b :: t, h, [] => by simp [pick]
  | a :: s, b :: t, h, i :: idx => by
    obtain ⟨rfl, h'⟩ := List.cons_prefix_cons.1 h
    simp only [pick, pick_pick h' idx]
    congr 1
    split <;> rfl

/-- The shape of a function of arrays whose shapes are prefixes of the same one. -/
theorem foldShapes {m : Nat} (sh : Fin m → List Nat) {full : List Nat} (hp : ∀ j, sh j <+: full) : ∀ (js : List (Fin m)) (s : List Nat), s <+: full →
    ∃ r, js.foldlM (fun s j => bcast s (sh j)) s = some r ∧ s <+: r ∧ r <+: full ∧ ∀ j ∈ js, sh j <+: r
  | [], s, hs => ⟨s, rfl, List.prefix_rfl, hs, by simp⟩
  | j :: js, s, hs => by
    obtain ⟨r, h1, h2, h3, h4⟩ := bcast_prefix hs (hp j)
    obtain ⟨r', k1, k2, k3, k4⟩ := foldShapes sh hp js r h4
    refine ⟨r', ?_, h2.trans k2, k3, fun j' hj' => ?_⟩
    · rw [List.foldlM_cons, h1]; exact k1
    · rcases List.mem_cons.1 hj' with rfl | h
      · exact h3.trans k2
      · exact k4 j' h

variable {U : Type} [Inhabited U] {n : Nat} {env : Nat → FieldState U}

omit [Inhabited U] in
theorem fits_shape {F : FieldState U} {size : Nat} {soa : Bool} (h : F.Fits size soa) (len : Nat) : rowShape F.size F.soa len <+: rowShape size soa len := by
  rcases h with ⟨h1, h2⟩ | ⟨h1, h2⟩
  · rcases h2 with h2 | h2
    · rw [h1, h2]; exact List.prefix_rfl
    · rw [h1, h2]
  · unfold rowShape
    rw [if_pos h1, h2]
    split
    · exact List.prefix_rfl
    · exact ⟨[size], rfl⟩

omit [Inhabited U] in
/-- The place read in a field for the component `c` of the cell number `i` of a row. -/
theorem fits_place {F : FieldState U} {size : Nat} {soa : Bool} (h : F.Fits size soa) {len i c : Nat} (hi : i < len) (hc : c < size) :
    rowPlace F.size F.soa (pick (rowShape F.size F.soa len) (rowIndex size soa i c)) = (i, if F.size = 1 then 0 else c) := by
  have h1 : ∀ {a j : Nat}, j < a → (if a = 1 then 0 else j) = j := fun hj => by split <;> omega
  by_cases h0 : F.size = 1
  · have hrow : ∃ t, rowIndex size soa i c = i :: t := by
      unfold rowIndex
      rcases h with ⟨k1, _⟩ | ⟨_, k2⟩
      · rw [if_pos (by omega)]; exact ⟨_, rfl⟩
      · rw [k2]
        split
        · exact ⟨_, rfl⟩
        · exact ⟨_, rfl⟩
    obtain ⟨t, ht⟩ := hrow
    rw [ht]
    simp [rowPlace, rowShape, h0, pick, h1 hi]
  · rcases h with ⟨rfl, k⟩ | ⟨k, _⟩
    · rw [if_neg h0]
      rcases k with k | k
      · exact absurd k h0
      · subst k
        cases hs : F.soa
        · simp [rowPlace, rowShape, rowIndex, h0, pick, h1 hi]
        · simp [rowPlace, rowShape, rowIndex, h0, pick, h1 hi]
    · exact absurd k h0

/-! ### one row -/

/-- The value read in the field number `k` in a cell. -/
def exprRead (n : Nat) (env : Nat → FieldState U) (l : Nat) (p : List Int) (k c : Nat) : U :=
  (env k).data (numOf n (env k).ref l p) (if (env k).size = 1 then 0 else c)

/-- The array of an expression on a row. -/
theorem eval_ok {l : Nat} {yz : List Int} {i : Interval} (hv : i.start < i.stop) (hs : i.step = 1) {size : Nat} {soa : Bool} (e : FieldExpr U)
    (hw : ∀ k, e.Uses k → (env k).ref.WF n) (hin : ∀ k, e.Uses k → ∀ x ∈ i, (env k).ref.Mem n l (yz ++ [x])) (hf : ∀ k, e.Uses k → (env k).Fits size soa) :
    ∃ w, e.eval n env l yz i = some w ∧ w.shape <+: rowShape size soa (i.stop - i.start).toNat ∧
      ∀ (j c : Nat), j < (i.stop - i.start).toNat → c < size →
        w.get (pick w.shape (rowIndex size soa j c)) = e.valueAt (exprRead n env l (yz ++ [i.start + (j : Int)])) c := by
  induction e with
  | field k =>
    obtain ⟨r, h1, h2⟩ := fieldInterval_ok (hw k rfl) (l := l) (yz := yz) (I := i) (by omega) (fun y h1 h2 => hin k rfl y (Interval.mem_def.2 ⟨h1, by omega⟩))
    refine ⟨_, by rw [FieldExpr.eval, FieldState.view, h1]; rfl, fits_shape (hf k rfl) _, fun j c hj hc => ?_⟩
    simp only [fits_place (hf k rfl) hj hc, FieldExpr.valueAt, exprRead]
    rw [h2 _ (by omega) (by omega)]
    congr 1; omega
  | const v => exact ⟨_, rfl, List.nil_prefix, fun j c _ _ => rfl⟩
  | fn m f args ih =>
    have ih' := fun j => ih j (fun k hk => hw k ⟨j, hk⟩) (fun k hk => hin k ⟨j, hk⟩) (fun k hk => hf k ⟨j, hk⟩)
    obtain ⟨ws, hws⟩ := Classical.axiom_of_choice ih'
    obtain ⟨r, h1, -, h3, h4⟩ := foldShapes (fun j => (ws j).shape) (fun j => (hws j).2.1) (List.finRange m) [] List.nil_prefix
    refine ⟨⟨r, fun idx => f fun j => (ws j).get (pick (ws j).shape idx)⟩, ?_, h3, fun j c hj hc => ?_⟩
    · rw [FieldExpr.eval, if_pos (fun j => by rw [(hws j).1]; rfl)]
      unfold applyViews
      have e1 : ∀ j, ((args j).eval n env l yz i).getD ⟨[], fun _ => default⟩ = ws j := fun j => by rw [(hws j).1]; rfl
      simp only [e1, h1, Option.map_some]
    · show f _ = f _
      congr 1
      funext a
      show (ws a).get (pick (ws a).shape (pick r _)) = _
      rw [pick_pick (h4 a (List.mem_finRange a)), (hws a).2.2 j c hj hc]

omit [Inhabited U] in
theorem valueAt_congr {read read' : Nat → Nat → U} {c : Nat} (e : FieldExpr U) (h : ∀ k, e.Uses k → read k c = read' k c) : e.valueAt read c = e.valueAt read' c := by
  induction e with
  | field k => exact h k rfl
  | const v => rfl
  | fn m f args ih =>
    show f _ = f _
    congr 1
    funext j
    exact ih j fun k hk => h k ⟨j, hk⟩

/-- Two environments that differ only by the values of the field number `a`. -/
def SameBut (a : Nat) (env env' : Nat → FieldState U) : Prop := (∀ k, k ≠ a → env' k = env k) ∧ env' a = { env a with data := (env' a).data }

omit [Inhabited U] in
theorem SameBut.refl (a : Nat) (env : Nat → FieldState U) : SameBut a env env := ⟨fun _ _ => rfl, rfl⟩

omit [Inhabited U] in
theorem SameBut.trans {a : Nat} {e1 e2 e3 : Nat → FieldState U} (h : SameBut a e1 e2) (h' : SameBut a e2 e3) : SameBut a e1 e3 :=
  ⟨fun k hk => (h'.1 k hk).trans (h.1 k hk), by rw [h'.2, h.2]⟩

omit [Inhabited U] in
theorem SameBut.ref {a : Nat} {e1 e2 : Nat → FieldState U} (h : SameBut a e1 e2) (k : Nat) :
    (e2 k).ref = (e1 k).ref ∧ (e2 k).size = (e1 k).size ∧ (e2 k).soa = (e1 k).soa ∧ (e2 k).cells = (e1 k).cells := by
  by_cases hk : k = a
  · subst hk; rw [h.2]; exact ⟨rfl, rfl, rfl, rfl⟩
  · rw [h.1 k hk]; exact ⟨rfl, rfl, rfl, rfl⟩

/-- One row of the assignment. -/
theorem assignRow_ok {a : Nat} {e : FieldExpr U} {l : Nat} {yz : List Int} {i : Interval} (hv : i.start < i.stop) (hs : i.step = 1)
    (hw : ∀ k, k = a ∨ e.Uses k → (env k).ref.WF n) (hin : ∀ k, k = a ∨ e.Uses k → ∀ x ∈ i, (env k).ref.Mem n l (yz ++ [x]))
    (hf : ∀ k, e.Uses k → (env k).Fits (env a).size (env a).soa) :
    ∃ env', assignRow n a e env l yz i = some env' ∧ SameBut a env env' ∧
      (∀ x ∈ i, ∀ c < (env a).size, (env' a).data (numOf n (env a).ref l (yz ++ [x])) c = e.valueAt (exprRead n env l (yz ++ [x])) c) ∧
      ∀ v c, ((∀ x ∈ i, v ≠ numOf n (env a).ref l (yz ++ [x])) ∨ (env a).size ≤ c) → (env' a).data v c = (env a).data v c := by
  obtain ⟨w, h1, h2, h3⟩ := eval_ok hv hs e (fun k hk => hw k (Or.inr hk)) (fun k hk => hin k (Or.inr hk)) hf
  obtain ⟨r, h4, h5⟩ := fieldInterval_ok (hw a (Or.inl rfl)) (l := l) (yz := yz) (I := i) (by omega)
    (fun y h1 h2 => hin a (Or.inl rfl) y (Interval.mem_def.2 ⟨h1, by omega⟩))
  refine ⟨_, by unfold assignRow; rw [h1, h4]; simp only []; rw [if_pos (bcast_full h2)], ⟨fun k hk => Function.update_of_ne hk _ _, ?_⟩, ?_, ?_⟩
  · rw [Function.update_self]
  · intro x hx c hc
    have hx := Interval.mem_def.1 hx
    rw [Function.update_self, h5 x (by omega) (by omega)]
    simp only []
    rw [if_pos ⟨by omega, by omega, hc⟩, h3 _ c (by omega) hc]
    have : i.start + (((r.index + x - r.index - i.start).toNat : Nat) : Int) = x := by omega
    rw [this]
  · intro v c h
    rw [Function.update_self]
    simp only []
    refine if_neg fun hh => ?_
    rcases h with h | h
    · refine h (v - r.index) (Interval.mem_def.2 ⟨by omega, by omega⟩) ?_
      rw [h5 _ (by omega) (by omega)]; omega
    · omega

/-! ### the loop -/

theorem CA.rows_disjoint {n : Nat} {c : CA} (h : c.WF n) : (c.rows n).Pairwise fun e e' => ∀ x ∈ e.2.2, ∀ y ∈ e'.2.2, ¬ (e.1 = e'.1 ∧ e.2.1 ++ [x] = e'.2.1 ++ [y]) := by
  unfold CA.rows
  rw [List.pairwise_flatMap]
  refine ⟨fun l hl => ?_, ?_⟩
  · rw [List.pairwise_map]
    refine (rows_sorted (h l (by have := List.mem_range.1 hl; omega))).imp fun {e e'} hlt x hx y hy hh => ?_
    have := hlt x hx y hy
    rw [hh.2] at this
    exact lt_irrefl _ this
  · refine List.nodup_range.imp fun {l l'} hne e he e' he' x _ y _ hh => ?_
    obtain ⟨_, _, rfl⟩ := List.mem_map.1 he
    obtain ⟨_, _, rfl⟩ := List.mem_map.1 he'
    exact hne hh.1

omit [Inhabited U] in
theorem exprRead_same {a : Nat} {e1 e2 : Nat → FieldState U} (h : SameBut a e1 e2) {l : Nat} {p : List Int} {k c : Nat}
    (hd : k = a → ∀ c, (e2 a).data (numOf n (e1 a).ref l p) c = (e1 a).data (numOf n (e1 a).ref l p) c) : exprRead n e2 l p k c = exprRead n e1 l p k c := by
  unfold exprRead
  by_cases hk : k = a
  · subst hk
    rw [(h.ref k).1, (h.ref k).2.1, hd rfl]
  · rw [h.1 k hk]

theorem assignRows_ok {a : Nat} {e : FieldExpr U} : ∀ (rs : List (Nat × List Int × Interval)) (env : Nat → FieldState U),
    (rs.Pairwise fun e e' => ∀ x ∈ e.2.2, ∀ y ∈ e'.2.2, ¬ (e.1 = e'.1 ∧ e.2.1 ++ [x] = e'.2.1 ++ [y])) →
    (∀ r ∈ rs, r.2.2.start < r.2.2.stop ∧ r.2.2.step = 1) →
    (∀ k, k = a ∨ e.Uses k → (env k).ref.WF n) → (env a).ref.NumbersDiffer n →
    (∀ k, k = a ∨ e.Uses k → ∀ r ∈ rs, ∀ x ∈ r.2.2, (env k).ref.Mem n r.1 (r.2.1 ++ [x])) →
    (∀ k, e.Uses k → (env k).Fits (env a).size (env a).soa) →
    ∃ env', rs.foldl (fun (s : Option (Nat → FieldState U)) r => s.bind fun env => assignRow n a e env r.1 r.2.1 r.2.2) (some env) = some env' ∧ SameBut a env env' ∧
      (∀ r ∈ rs, ∀ x ∈ r.2.2, ∀ c < (env a).size,
        (env' a).data (numOf n (env a).ref r.1 (r.2.1 ++ [x])) c = e.valueAt (exprRead n env r.1 (r.2.1 ++ [x])) c) ∧
      ∀ v c, ((∀ r ∈ rs, ∀ x ∈ r.2.2, v ≠ numOf n (env a).ref r.1 (r.2.1 ++ [x])) ∨ (env a).size ≤ c) → (env' a).data v c = (env a).data v c
  | [], env, _, _, _, _, _, _ => ⟨env, rfl, SameBut.refl a env, by simp, fun _ _ _ => rfl⟩
  | r :: rs, env, hp, hv, hw, hd, hin, hf => by
    obtain ⟨hp0, hp⟩ := List.pairwise_cons.1 hp
    obtain ⟨env1, h1, h2, h3, h4⟩ := assignRow_ok (n := n) (env := env) (a := a) (e := e) (l := r.1) (yz := r.2.1) (hv r List.mem_cons_self).1 (hv r List.mem_cons_self).2 hw
      (fun k hk x hx => hin k hk r List.mem_cons_self x hx) hf
    obtain ⟨env', k1, k2, k3, k4⟩ := assignRows_ok rs env1 hp (fun r hr => hv r (List.mem_cons_of_mem _ hr)) (fun k hk => by rw [(h2.ref k).1]; exact hw k hk)
      (by rw [(h2.ref a).1]; exact hd) (fun k hk r hr => by rw [(h2.ref k).1]; exact hin k hk r (List.mem_cons_of_mem _ hr))
      (fun k hk => by
        have := hf k hk
        unfold FieldState.Fits at this ⊢
        rw [(h2.ref k).2.1, (h2.ref k).2.2.1, (h2.ref a).2.1, (h2.ref a).2.2.1]; exact this)
    rw [(h2.ref a).1, (h2.ref a).2.1] at k3 k4
    -- the numbers of the first row are not those of the others
    have hne : ∀ x ∈ r.2.2, ∀ r' ∈ rs, ∀ y ∈ r'.2.2, numOf n (env a).ref r.1 (r.2.1 ++ [x]) ≠ numOf n (env a).ref r'.1 (r'.2.1 ++ [y]) := by
      intro x hx r' hr' y hy heq
      have m1 := numOf_numbered (hw a (Or.inl rfl)) (hin a (Or.inl rfl) r List.mem_cons_self x hx)
      have m2 := numOf_numbered (hw a (Or.inl rfl)) (hin a (Or.inl rfl) r' (List.mem_cons_of_mem _ hr') y hy)
      rw [heq] at m1
      exact hp0 r' hr' x hx y hy (number_inj hd m1 m2)
    refine ⟨env', ?_, h2.trans k2, ?_, ?_⟩
    · rw [List.foldl_cons, Option.bind_some, h1]; exact k1
    · intro r' hr' x hx c hc
      rcases List.mem_cons.1 hr' with rfl | hr'
      · rw [k4 _ c (Or.inl fun r'' hr'' y hy => hne x hx r'' hr'' y hy), h3 x hx c hc]
      · rw [k3 r' hr' x hx c hc]
        refine valueAt_congr e fun k hk => exprRead_same h2 fun _ c => ?_
        exact h4 _ c (Or.inl fun y hy h => hne y hy r' hr' x hx h.symm)
    · intro v c h
      rcases h with h | h
      · rw [k4 v c (Or.inl fun r' hr' => h r' (List.mem_cons_of_mem _ hr')), h4 v c (Or.inl (h r List.mem_cons_self))]
      · rw [k4 v c (Or.inr h), h4 v c (Or.inr h)]

end Samurai
