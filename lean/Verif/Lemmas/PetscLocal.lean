/-
A linear scheme with a stencil of two cells only uses the leaves and the cells next to the leaves.
-/
import Verif.Props.LinFlux
import Verif.Lemmas.PetscSystem

namespace Samurai

section
variable {K U V : Type} [Field K] [AddCommGroup U] [Module K U] [AddCommGroup V] [Module K V]

theorem linValue_congr {u1 u2 : Int → U} : ∀ (A : List (U →ₗ[K] V)) (C : List MCell), (∀ c ∈ C, u1 c.index = u2 c.index) → linValue u1 A C = linValue u2 A C := by
  intro A
  induction A with
  | nil => intro C _; cases C <;> rfl
  | cons a A ih =>
    intro C h
    cases C with
    | nil => rfl
    | cons c C =>
      show a (u1 c.index) + _ = a (u2 c.index) + _
      rw [h c (by simp), ih C fun x hx => h x (by simp [hx])]

theorem dirShare_congr {n : Nat} {h0 : K} {F G : List MCell → V × V} {bdry : Bool} {fs : List FaceCall} {bs bs' : List BdryCall} {c : Nat × List Int}
    (h1 : ∀ f ∈ fs, F f.comput = G f.comput) (h2 : ∀ f ∈ bs, F f.comput = G f.comput) (h3 : ∀ f ∈ bs', F f.comput = G f.comput) :
    dirShare n h0 F bdry fs bs bs' c = dirShare n h0 G bdry fs bs bs' c := by
  unfold dirShare
  congr 1
  · refine sum_map_congr fun f hf => ?_
    unfold faceShare
    rw [h1 f hf]
  · congr 1
    congr 1
    · refine sum_map_congr fun f hf => ?_
      simp only [bdryShare]
      rw [h2 f hf]
    · refine sum_map_congr fun f hf => ?_
      simp only [bdryShare]
      rw [h3 f hf]

theorem FVMesh.linear_local {n : Nat} {cells ref : CA} {dom sub : LCA} {minL maxL w : Nat} (g : FVMesh n cells ref dom minL maxL w) (hnum : FVNumbers n cells ref)
    (hsub : constructSubdomain n cells maxL = some sub) {h0 : K} {ld : LinDef K U V} (hS : ∀ d ≤ n, StencilOK n w (unitDir d) (ld.stencil d))
    (hS2 : ∀ d ≤ n, TwoPoint n (unitDir d) (ld.stencil d)) {u1 u2 : Int → U}
    (h : ∀ l q k, (l, q, k) ∈ ref.numbered n → (∃ p, cells.Mem n l p ∧ Near 1 q p) → u1 k = u2 k) {bdry par : Bool} {o1 o2 : Int → V}
    (e1 : linApplyTo n h0 par u1 ref sub cells maxL bdry ld = some o1) (e2 : linApplyTo n h0 par u2 ref sub cells maxL bdry ld = some o2) : o1 = o2 := by
  have run : ∀ (u : Int → U) (out : Int → V), linApplyTo n h0 par u ref sub cells maxL bdry ld = some out → ∃ fs bs bs', SchemeCalls n ref cells dom maxL ld.stencil fs bs bs' ∧
      (∀ l p v, (l, p, v) ∈ cells.numbered n → out v = ((cellLength h0 l) ^ (n + 1))⁻¹ •
        ((List.range (n + 1)).map fun d => dirShare n h0 ((linFlux h0 u ld).flux d) bdry (fs d) (bs d) (bs' d) (l, p)).sum) ∧
      ∀ i, (∀ l p, (l, p, i) ∉ cells.numbered n) → out i = 0 := by
    intro u out0 e
    obtain ⟨out, k1, k2, -⟩ := C65_linear_scheme n cells ref dom sub minL maxL w h0 ld u bdry g hnum hsub hS
    obtain ⟨fs, bs, bs', out', j1, j2, j3, j4⟩ := C64_apply_scheme n cells ref dom sub minL maxL w h0 (linFlux h0 u ld) bdry g hnum hsub hS
    rw [k1] at j2
    cases j2
    rw [k2 par] at e
    cases e
    exact ⟨fs, bs, bs', j1, j3, j4⟩
  obtain ⟨fa, ba, ba', a2, a3, a4⟩ := run u1 o1 e1
  obtain ⟨fb, bb, bb', b2, b3, b4⟩ := run u2 o2 e2
  funext i
  by_cases hi : ∃ l p, (l, p, i) ∈ cells.numbered n
  · obtain ⟨l, p, hi⟩ := hi
    rw [a3 l p i hi, b3 l p i hi]
    congr 1
    refine sum_map_congr fun d hd => ?_
    have hd : d ≤ n := by rw [List.mem_range] at hd; omega
    obtain ⟨p1, p2, p3⟩ := a2.perm g.refWF b2 hd
    rw [dirShare_perm p1 p2 p3]
    have hF : ∀ C : List MCell, (∀ c ∈ C, u1 c.index = u2 c.index) → (linFlux h0 u1 ld).flux d C = (linFlux h0 u2 ld).flux d C := by
      intro C hC
      show (linValue u1 _ C, - linValue u1 _ C) = (linValue u2 _ C, - linValue u2 _ C)
      rw [linValue_congr _ _ hC]
    have hu : ∀ k, -((1 : Nat) : Int) ≤ unitDir d k ∧ unitDir d k ≤ ((1 : Nat) : Int) := fun k => by unfold unitDir; split_ifs <;> constructor <;> norm_num
    have hnear : ∀ q : List Int, Near 1 (shiftPoint (unitDir d) n q) q := fun q => near_shift q n fun k _ => hu k
    -- the two cells of a face
    have two : ∀ {L : Nat} {q : List Int} {C : List MCell}, (cells.Mem n L q ∨ cells.Mem n L (shiftPoint (unitDir d) n q)) →
        List.Forall₂ (fun s c => CellIs n ref L (shiftPoint s n q) c) (ld.stencil d) C → ∀ c ∈ C, u1 c.index = u2 c.index := by
      intro L q C hq hC c hc
      obtain ⟨s, hs, hcs⟩ := forall₂_mem hC hc
      refine h _ _ _ hcs.2.2 ?_
      rcases hS2 d hd s hs with e | e
      · rw [shift_congr (s := s) (t := fun _ => 0) _ _ e, shift_zero]
        rcases hq with hq | hq
        · exact ⟨_, hq, near_refl _ _⟩
        · exact ⟨_, hq, near_symm (hnear q)⟩
      · rw [shift_congr (s := s) (t := unitDir d) _ _ e]
        rcases hq with hq | hq
        · exact ⟨_, hq, hnear q⟩
        · exact ⟨_, hq, near_refl _ _⟩
    obtain ⟨c1, c2, c3⟩ := b2 d hd
    refine dirShare_congr (fun f hf => hF _ ?_) (fun f hf => hF _ ?_) (fun f hf => hF _ ?_)
    · obtain ⟨-, -, q, ⟨hq1, hq2⟩, hC⟩ := c1.right f hf
      obtain ⟨m1, m2, -⟩ := (c1.mem f.left.id f.right.id).1 (List.mem_map.2 ⟨f, hf, rfl⟩)
      refine two ?_ hC
      rcases le_total f.left.level f.right.level with hle | hle
      · rw [max_eq_right hle]
        right
        have : max f.left.id.1 f.right.id.1 - f.right.id.1 = 0 := by
          show max f.left.level f.right.level - f.right.level = 0
          omega
        rw [this, anc_zero] at hq2
        rw [← hq2]
        exact m2
      · rw [max_eq_left hle]
        left
        have : max f.left.id.1 f.right.id.1 - f.left.id.1 = 0 := by
          show max f.left.level f.right.level - f.left.level = 0
          omega
        rw [this, anc_zero] at hq1
        rw [← hq1]
        exact m1
    · obtain ⟨m1, -⟩ := (c2.mem f.cell.level f.cell.pt).1 (List.mem_map.2 ⟨f, hf, rfl⟩)
      exact two (Or.inl m1) (c2.right f hf).2
    · obtain ⟨m1, -⟩ := (c3.mem f.cell.level f.cell.pt).1 (List.mem_map.2 ⟨f, hf, rfl⟩)
      refine two (Or.inr ?_) (c3.right f hf).2
      rw [shift_shift, show (fun k => - unitDir d k + unitDir d k) = fun _ : Nat => (0 : Int) by funext k; ring, shift_zero]
      exact m1
  · have hi : ∀ l p, (l, p, i) ∉ cells.numbered n := fun l p h => hi ⟨l, p, h⟩
    rw [a4 i hi, b4 i hi]

end

end Samurai
