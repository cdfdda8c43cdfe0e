/-
C58, refuted for `graduation_width = 2`: the mesh adaptation can produce a mesh that is not graded, and then overlapping leaves.
-/
import Verif.Lemmas.AdaptBounds
import Verif.Props.Adapt

namespace Samurai

/-! ### the mesh -/

def widthCalls : List (Nat × CellCall) := [(2, .interval [] (.mk' 0 1)), (3, .interval [] (.mk' 2 3)), (4, .interval [] (.mk' 6 8))]

/-- The leaves: the cell 0 of level 2, the cell 2 of level 3, the cells 6 and 7 of level 4. They tile the cell 0 of level 1. -/
def widthLeaves : CA :=
  match (CL.new 0 4).calls widthCalls with
  | some cl => CA.ofCL cl
  | none => CA.empty 0 4

/-- The domain: the cell 0 of level 1. -/
def widthDomain : LCA :=
  match (CL.new 0 4).calls [(1, .interval [] (.mk' 0 1))] with
  | some cl => (CA.ofCL cl).lca 1
  | none => {}

theorem widthLeaves_numbered : widthLeaves.numbered 0 = [(2, [0], 0), (3, [2], 2), (4, [6], 6), (4, [7], 7)] := by decide +kernel

theorem widthLeaves_spec : widthLeaves.WF 0 ∧ widthLeaves.Leveled ∧ widthLeaves.maxSize = 4 := by
  obtain ⟨cl, h1, h2⟩ := (hist_new 0 4).calls (k := widthCalls) (by
    simp [widthCalls, CellCall.idx, CellCall.Valid, Interval.mk'])
  have he : widthLeaves = CA.ofCL cl := by
    unfold widthLeaves
    rw [h1]
  obtain ⟨a1, a2, a3, -, -⟩ := h2.array
  rw [he]
  exact ⟨a2, a3, a1⟩

theorem widthLeaves_mem (l : Nat) (p : List Int) : widthLeaves.Mem 0 l p ↔
    (l = 2 ∧ p = [0]) ∨ (l = 3 ∧ p = [2]) ∨ (l = 4 ∧ (p = [6] ∨ p = [7])) := by
  have hw := widthLeaves_spec.1
  constructor
  · intro h
    obtain ⟨v, hv⟩ := CA.exists_number hw h
    rw [widthLeaves_numbered] at hv
    simp only [List.mem_cons, Prod.mk.injEq, List.not_mem_nil, or_false] at hv
    tauto
  · intro h
    have : ∃ v, (l, p, v) ∈ widthLeaves.numbered 0 := by
      rw [widthLeaves_numbered]
      rcases h with ⟨rfl, rfl⟩ | ⟨rfl, rfl⟩ | ⟨rfl, rfl | rfl⟩
      exacts [⟨0, by simp⟩, ⟨2, by simp⟩, ⟨6, by simp⟩, ⟨7, by simp⟩]
    obtain ⟨v, hv⟩ := this
    exact CA.mem_of_numbered hw hv

theorem widthDomain_spec : widthDomain.WF 0 ∧ widthDomain.level = 1 ∧ ∀ p, widthDomain.Mem 0 p ↔ p = [0] := by
  obtain ⟨cl, h1, h2⟩ := (hist_new 0 4).calls (k := [(1, .interval [] (.mk' 0 1))]) (by
    simp [CellCall.idx, CellCall.Valid, Interval.mk'])
  have he : widthDomain = (CA.ofCL cl).lca 1 := by
    unfold widthDomain
    rw [h1]
  obtain ⟨a1, a2, a3, -, -⟩ := h2.array
  have hn : (CA.ofCL cl).numbered 0 = [(1, [0], 0)] := by
    have : (match (CL.new 0 4).calls [(1, .interval [] (.mk' 0 1))] with
      | some cl => (CA.ofCL cl).numbered 0
      | none => []) = [(1, [0], 0)] := by decide +kernel
    rw [h1] at this
    exact this
  rw [he]
  refine ⟨a2 1 (by omega), a3 1 (by omega), fun p => ?_⟩
  constructor
  · intro h
    obtain ⟨v, hv⟩ := CA.exists_number a2 (l := 1) (p := p) ⟨by omega, h⟩
    rw [hn] at hv
    simp only [List.mem_cons, Prod.mk.injEq, List.not_mem_nil, or_false] at hv
    exact hv.2.1
  · rintro rfl
    exact (CA.mem_of_numbered a2 (l := 1) (p := [0]) (v := 0) (by rw [hn]; simp)).2

theorem anc_single {k : Nat} {a x : Int} : Anc k [a] [x] ↔ a = x / 2 ^ k := by
  rw [anc_iff]
  simp [shr]

theorem parentOf_single (x : Int) : parentOf [x] = [x / 2] := by simp [parentOf, shr]

theorem anc_of_single {k : Nat} {a : Int} {m : List Int} (h : Anc k [a] m) : ∃ x, m = [x] ∧ a = x / 2 ^ k := by
  rw [anc_iff] at h
  cases m with
  | nil => simp at h
  | cons x m =>
    cases m with
    | nil => exact ⟨x, rfl, by simpa [shr] using h⟩
    | cons y m => simp at h

theorem parentOf_of_single {q : List Int} {a : Int} (h : parentOf q = [a]) : ∃ x, q = [x] ∧ a = x / 2 := by
  obtain ⟨x, h1, h2⟩ := anc_of_single (anc_one.2 h)
  exact ⟨x, h1, by simpa using h2⟩

theorem near_single {a : Int} {q : List Int} (h : Near 1 q [a]) : ∃ x, q = [x] ∧ x ≤ a + 1 ∧ a ≤ x + 1 := by
  unfold Near at h
  cases q with
  | nil => cases h
  | cons x q =>
    rw [List.forall₂_cons] at h
    obtain ⟨h1, h2⟩ := h
    cases h2
    exact ⟨x, rfl, by push_cast at h1; omega⟩

theorem widthInDomain (m : List Int) : InDomain 0 widthDomain 4 m ↔ ∃ x, m = [x] ∧ 0 ≤ x ∧ x < 8 := by
  obtain ⟨-, d2, d3⟩ := widthDomain_spec
  unfold InDomain
  rw [d2]
  constructor
  · rintro ⟨d, h1, h2⟩
    rw [d3] at h1
    subst h1
    obtain ⟨x, rfl, h3⟩ := anc_of_single h2
    exact ⟨x, rfl, by norm_num at h3; omega⟩
  · rintro ⟨x, rfl, h1, h2⟩
    exact ⟨[0], (d3 _).2 rfl, anc_single.2 (by norm_num; omega)⟩

theorem widthDomain_good (margin : Nat) (h : margin ≤ 100) : GoodDomain 0 widthDomain 1 4 margin := by
  obtain ⟨d1, d2, d3⟩ := widthDomain_spec
  refine ⟨d1, by omega, fun p m m' h1 h2 h3 => ?_, 8, by omega, by unfold INT_MAX; omega, fun m hm x hx => ?_⟩
  · rw [widthInDomain] at h3 ⊢
    obtain ⟨x, rfl, h4, h5⟩ := h3
    rw [anc_iff] at h1
    simp only [shr, List.map_cons, List.map_nil] at h1
    subst h1
    obtain ⟨y, rfl, h6⟩ := anc_of_single h2
    exact ⟨y, rfl, by norm_num at h6; omega⟩
  · obtain ⟨y, rfl, h1, h2⟩ := (widthInDomain m).1 hm
    simp only [List.mem_singleton] at hx
    omega

theorem widthLeaves_good : GoodLeaves 0 widthLeaves widthDomain 1 4 := by
  obtain ⟨w1, w2, w3⟩ := widthLeaves_spec
  refine ⟨w1, w2, by omega, fun l p h => ?_, fun l p l' p' h h' hl ha => ?_, fun l p l' p' q h h' hl hn ha => ?_, fun m => ?_⟩
  · rw [widthLeaves_mem] at h
    omega
  · rw [widthLeaves_mem] at h h'
    rcases h with ⟨rfl, rfl⟩ | ⟨rfl, rfl⟩ | ⟨rfl, rfl | rfl⟩ <;> rcases h' with ⟨rfl, rfl⟩ | ⟨rfl, rfl⟩ | ⟨rfl, rfl | rfl⟩ <;>
      first | exact ⟨rfl, rfl⟩ | (exfalso; omega) | (exfalso; rw [anc_single] at ha; norm_num at ha)
  · rw [widthLeaves_mem] at h h'
    rcases h with ⟨rfl, rfl⟩ | ⟨rfl, rfl⟩ | ⟨rfl, rfl | rfl⟩ <;> rcases h' with ⟨rfl, rfl⟩ | ⟨rfl, rfl⟩ | ⟨rfl, rfl | rfl⟩ <;>
      first
      | omega
      | (exfalso
         obtain ⟨x, rfl, h1, h2⟩ := near_single hn
         rw [anc_single] at ha
         norm_num at ha
         omega)
  · rw [widthInDomain]
    unfold CA.Tiles
    constructor
    · rintro ⟨l, p, -, h1, h2⟩
      rw [widthLeaves_mem] at h1
      rcases h1 with ⟨rfl, rfl⟩ | ⟨rfl, rfl⟩ | ⟨rfl, rfl | rfl⟩ <;>
        (obtain ⟨x, rfl, h3⟩ := anc_of_single h2
         refine ⟨x, rfl, ?_⟩
         norm_num at h3
         omega)
    · rintro ⟨x, rfl, h1, h2⟩
      by_cases h3 : x < 4
      · exact ⟨2, [0], by omega, (widthLeaves_mem _ _).2 (Or.inl ⟨rfl, rfl⟩), anc_single.2 (by norm_num; omega)⟩
      · by_cases h4 : x < 6
        · exact ⟨3, [2], by omega, (widthLeaves_mem _ _).2 (Or.inr (Or.inl ⟨rfl, rfl⟩)), anc_single.2 (by norm_num; omega)⟩
        · refine ⟨4, [x], by omega, (widthLeaves_mem _ _).2 (Or.inr (Or.inr ⟨rfl, ?_⟩)), anc_single.2 (by simp)⟩
          rcases (show x = 6 ∨ x = 7 by omega) with rfl | rfl
          · exact Or.inl rfl
          · exact Or.inr rfl

/-! ### the two steps -/

/-- First step: only the detail of the cell 2 of level 3 is large. -/
def widthMasks1 : DetailMasks where
  small _ _ := false
  large l q := l == 3 && q == [2]
  largeParent _ _ := false

/-- Second step: only the detail of the cell 0 of level 2 is small. -/
def widthMasks2 : DetailMasks where
  small l q := l == 2 && q == [0]
  large _ _ := false
  largeParent _ _ := false

theorem width_stencil {s : Nat → Int} (h : s ∈ gradStencils 0 2) : s 0 = 2 ∨ s 0 = -2 := by
  unfold gradStencils boxDir at h
  simp only [List.map_cons, List.map_nil, List.mem_cons, List.not_mem_nil, or_false] at h
  rcases h with rfl | rfl <;> simp

theorem subPoint_of_single {s : Nat → Int} {p : List Int} {a : Int} (h : subPoint s 0 p = [a]) : p = [a + s 0] := by
  rw [← sub_shift s p 0, h]
  rfl

theorem subPoint_single (s : Nat → Int) (a : Int) : subPoint s 0 [a] = [a - s 0] := rfl

theorem small_ne {q : List Int} {D : DetailMasks} {level : Nat} (h : SmallFamily 0 D level (parentOf q)) :
    ∃ c, parentOf c = parentOf q ∧ D.small (level + 1) c = true := by
  unfold SmallFamily at h
  rw [if_pos rfl] at h
  have hq : q ∈ childrenOf (parentOf q) := mem_children.2 rfl
  have hm : ∀ c ∈ childrenOf (parentOf q), parentOf c = parentOf q := fun c hc => mem_children.1 hc
  generalize childrenOf (parentOf q) = L at h hq hm
  cases L with
  | nil => simp at hq
  | cons c L =>
    rw [List.take_succ_cons, List.all_cons, Bool.and_eq_true] at h
    exact ⟨c, hm c List.mem_cons_self, h.1⟩

open Classical in
theorem width_criteria1 {gw : Nat} {m : SubMeshes} (S : AdaptSets 0 gw m.cells m.ghosts m.all widthDomain 4) (hw : m.cells.WF 0)
    (hm : ∀ l p, m.cells.Mem 0 l p ↔ widthLeaves.Mem 0 l p) (hall : m.all.Mem 0 2 [1]) :
    ∃ t0, (List.range' 1 (4 - 0 + 1 - 1)).foldlM (criteriaLevel 0 1 4 widthMasks1 m.cells m.all) (tagLeaves 0 m.cells) = some t0 ∧
      (∀ l q, t0.Keep l q → m.cells.Mem 0 l q) ∧ (∀ l q, t0.Refine l q ↔ l = 3 ∧ q = [2]) ∧
      ∀ l q, m.cells.Mem 0 l q → l ≠ 3 → t0.Keep l q := by
  obtain ⟨k1, k2⟩ := tagLeaves_keep hw
  obtain ⟨t0, h1, h2, h3, h4, h5⟩ := foldRange (criteriaLevel 0 1 4 widthMasks1 m.cells m.all) (fun k t =>
      (∀ l q, t.Keep l q → m.cells.Mem 0 l q) ∧ (∀ l q, t.Refine l q → l = 3 ∧ q = [2]) ∧ (3 < k → t.Refine 3 [2]) ∧
      ∀ l q, m.cells.Mem 0 l q → l ≠ 3 → t.Keep l q) 1 (4 - 0 + 1 - 1) (by
    rintro k t a1 a2 ⟨i1, i2, i3, i4⟩
    obtain ⟨calls, c1, c2⟩ := S.parents k a1 (by omega)
    unfold criteriaLevel
    rw [c1]
    have ek : k - 1 + 1 = k := by omega
    have e : ∀ l q, tagCells (toRefineCell 4 widthMasks1 (k - 1)) calls (tagCells (toCoarsenCell 0 1 widthMasks1 (k - 1)) calls t) l q =
        if l = k ∧ Covers calls (parentOf q) ∧ k = 3 ∧ q = [2] then CellFlag.refine else t l q := by
      intro l q
      have hc : tagCells (toCoarsenCell 0 1 widthMasks1 (k - 1)) calls t l q = t l q := by
        rw [tagToCoarsen, if_neg]
        rintro ⟨-, -, -, h⟩
        obtain ⟨c, -, h⟩ := small_ne h
        exact absurd h (by simp [widthMasks1])
      rw [tagToRefine, hc, ek]
      have hr : refinedTag 4 widthMasks1 (k - 1) q (t l q) = if k = 3 ∧ q = [2] then CellFlag.refine else t l q := by
        unfold refinedTag
        rw [ek, if_neg (c := widthMasks1.largeParent (k - 1) (parentOf q) = true) (by simp [widthMasks1])]
        by_cases h : k = 3 ∧ q = [2]
        · rw [if_pos h, if_pos ⟨by omega, by simp [widthMasks1, h.1, h.2]⟩]
        · rw [if_neg h, if_neg]
          rintro ⟨-, h'⟩
          simp only [widthMasks1, Bool.and_eq_true, beq_iff_eq] at h'
          exact h h'
      by_cases h : l = k ∧ Covers calls (parentOf q)
      · rw [if_pos h, hr]
        by_cases h' : k = 3 ∧ q = [2]
        · rw [if_pos h', if_pos ⟨h.1, h.2, h'⟩]
        · rw [if_neg h', if_neg (fun h'' => h' h''.2.2)]
      · rw [if_neg h, if_neg (fun h'' => h ⟨h''.1, h''.2.1⟩)]
    refine ⟨_, rfl, fun l q h => ?_, fun l q h => ?_, fun h => ?_, fun l q h h' => ?_⟩
    · unfold TagField.Keep at h
      rw [e] at h
      split at h
      · exact absurd h (by decide)
      · exact i1 l q h
    · unfold TagField.Refine at h
      rw [e] at h
      split at h
      · rename_i h'
        exact ⟨by omega, h'.2.2.2⟩
      · exact i2 l q h
    · unfold TagField.Refine
      rw [e]
      by_cases h3 : k = 3
      · subst h3
        rw [if_pos]
        · decide
        · refine ⟨rfl, (c2 _).2 ⟨⟨[2], (hm _ _).2 ((widthLeaves_mem _ _).2 (Or.inr (Or.inl ⟨rfl, rfl⟩))), rfl⟩, ?_⟩, rfl, rfl⟩
          rw [parentOf_single]
          exact hall
      · rw [if_neg (fun h' => h3 h'.2.2.1)]
        exact i3 (by omega)
    · unfold TagField.Keep
      rw [e, if_neg (by omega)]
      exact i4 l q h h') (tagLeaves 0 m.cells) ⟨fun l q h => (k1 l q).1 h, fun l q h => absurd h (k2 l q), fun h => by omega,
        fun l q h _ => (k1 l q).2 h⟩
  refine ⟨t0, h1, h2, fun l q => ⟨h3 l q, ?_⟩, h5⟩
  rintro ⟨rfl, rfl⟩
  exact h4 (by omega)

theorem width_closed1 {cells : CA} (hm : ∀ l p, cells.Mem 0 l p ↔ widthLeaves.Mem 0 l p) :
    Closed 0 2 1 cells (fun l p => ¬ (l = 3 ∧ p = [0])) (fun l p => ¬ (l = 2 ∧ p = [0])) := by
  refine ⟨?_, ?_, ?_, ?_, ?_⟩
  · rintro l p q h hR hn ⟨rfl, rfl⟩
    rw [hm, widthLeaves_mem] at h
    have : p = [2] := by simpa using h
    subst this
    obtain ⟨x, h1, h2, h3⟩ := near_single hn
    simp only [List.cons.injEq, and_true] at h1
    omega
  · rintro l d c c' h1 h2 h3 h4 ⟨rfl, rfl⟩
    rw [hm, widthLeaves_mem] at h1
    have : d = [2] := by simpa using h1
    subst this
    rw [parentOf_single, parentOf_single] at h4
    simp at h4
  · rintro l c h1 h2 ⟨h3, h4⟩
    have : l = 4 := by omega
    subst this
    rw [hm, widthLeaves_mem] at h2
    have : c = [6] ∨ c = [7] := by simpa using h2
    rcases this with rfl | rfl <;> (rw [parentOf_single] at h4; simp at h4)
  · rintro l c s h1 hs h2 ⟨h3, h4⟩
    have : l = 4 := by omega
    subst this
    rw [hm, widthLeaves_mem] at h2
    have : c = [6] ∨ c = [7] := by simpa using h2
    rcases this with rfl | rfl <;> rcases width_stencil hs with hs | hs <;>
      (rw [parentOf_single, subPoint_single, hs] at h4; simp at h4)
  · rintro l p s h1 hs h2 h3 ⟨h4, h5⟩
    have : l = 3 := by omega
    subst this
    rw [hm, widthLeaves_mem] at h2
    have h6 : subPoint s 0 p = [2] := by simpa using h2
    have h7 := subPoint_of_single h6
    subst h7
    rcases width_stencil hs with hs | hs
    · rw [hs, parentOf_single] at h5
      simp at h5
    · exact h3 ⟨rfl, by rw [hs]; simp⟩

/-- The leaves after the first step. -/
def WidthAfter (l : Nat) (p : List Int) : Prop := (l = 2 ∧ p = [0]) ∨ (l = 4 ∧ (p = [4] ∨ p = [5] ∨ p = [6] ∨ p = [7]))

theorem width_below {cells : CA} {P : Nat → List Int → Prop} (hm : ∀ l p, cells.Mem 0 l p → P l p)
    (h : ∀ l p, P l p → ∃ x, p = [x] ∧ x * 2 ^ (4 - l) < 8) : cells.Below 0 4 8 := by
  intro l p hp x hx
  obtain ⟨y, rfl, h1⟩ := h l p (hm l p hp)
  simp only [List.mem_singleton] at hx
  subst hx
  exact h1

theorem widthDomain_below : widthDomain.BelowAt 0 4 8 := by
  obtain ⟨_, d2, d3⟩ := widthDomain_spec
  intro p hp x hx
  rw [d3] at hp
  subst hp
  simp only [List.mem_singleton] at hx
  subst hx
  simp

variable {K : Type} [Field K]

theorem width_step1 {c0 : CA} {m : SubMeshes} {u : CA} (h : MRMeshOK 0 ⟨1, 1⟩ c0 1 4 m u)
    (hm : ∀ l p, m.cells.Mem 0 l p ↔ widthLeaves.Mem 0 l p) (hs : 4 ≤ m.cells.maxSize) (f : CellField K) :
    ∃ b m' u' f', harten 0 ⟨1, 1⟩ 2 1 4 0 false widthMasks1 widthDomain m u f = some (b, m', u', f') ∧
      (∀ l p, m'.cells.Mem 0 l p ↔ WidthAfter l p) ∧ 4 ≤ m'.cells.maxSize ∧ ∃ c1, MRMeshOK 0 ⟨1, 1⟩ c1 1 4 m' u' := by
  obtain ⟨d1, d2, d3⟩ := widthDomain_spec
  have hbt : m.cells.Between 0 1 4 := fun l p hp => widthLeaves_good.between l p ((hm l p).1 hp)
  have hno : m.cells.NoOverlap 0 := fun l p l' p' hp hp' => widthLeaves_good.noOverlap l p l' p' ((hm l p).1 hp) ((hm l' p').1 hp')
  have hbl : m.cells.Below 0 4 8 := width_below (fun l p hp => (widthLeaves_mem l p).1 ((hm l p).1 hp)) (by
    rintro l p (⟨rfl, rfl⟩ | ⟨rfl, rfl⟩ | ⟨rfl, rfl | rfl⟩)
    exacts [⟨0, rfl, by norm_num⟩, ⟨2, rfl, by norm_num⟩, ⟨6, rfl, by norm_num⟩, ⟨7, rfl, by norm_num⟩])
  have S : AdaptSets 0 2 m.cells m.ghosts m.all widthDomain 4 :=
    h.sets hbt hs d1 (by omega) (D := 8) (by omega) (by unfold INT_MAX; norm_num) hbl widthDomain_below
  have h3 : m.cells.Mem 0 3 [2] := (hm _ _).2 ((widthLeaves_mem _ _).2 (Or.inr (Or.inl ⟨rfl, rfl⟩)))
  have hall : m.all.Mem 0 2 [1] := by
    have := h.parent hno hbt (by omega) h3
    rwa [parentOf_single] at this
  obtain ⟨t0, e1, e2, e3, e4⟩ := width_criteria1 S h.wf.1 hm hall
  obtain ⟨t, r1, r2, r3, r4, r5, -⟩ := harten_bounds S (width_closed1 hm) (by omega) e1
    (fun l q hk => by
      rintro ⟨rfl, rfl⟩
      have := e2 _ _ hk
      rw [hm, widthLeaves_mem] at this
      simp at this)
    (fun l q hk => by
      rintro ⟨rfl, rfl⟩
      have := (e3 _ _).1 hk
      omega)
  have hprop : m.cells.Proper 0 1 4 (1 + 1 + 3) :=
    ⟨h.wf.1, h.cellsLevels.2, hbt, hs, 8, by omega, by unfold INT_MAX; norm_num, hbl⟩
  obtain ⟨b, m', u', f', k1, k2, k3, k4, k5⟩ := updateFieldMr_spec (cfg := ⟨1, 1⟩) (tag := tagArray 0 m.all t) (u := u) (by omega) hprop hno f
  refine ⟨b, m', u', f', ?_, fun l p => ?_, ?_, ?_⟩
  · unfold harten
    rw [r1]
    exact k1
  · rw [k3]
    simp only [h.leafTag]
    constructor
    · rintro ⟨l', q, v, ⟨h1, rfl⟩, hb⟩
      unfold Becomes at hb
      rw [asks_refine, asks_coarsen, asks_keep] at hb
      have h1' := h1
      rw [hm, widthLeaves_mem] at h1'
      rcases h1' with ⟨rfl, rfl⟩ | ⟨rfl, rfl⟩ | ⟨rfl, h1'⟩
      · rcases hb with ⟨hb, -⟩ | ⟨⟨-, hb, -⟩, -⟩ | ⟨-, hb⟩
        · exact absurd ⟨rfl, rfl⟩ (r3 _ _ hb)
        · exact absurd (r4 _ _ (e4 _ _ h1 (by omega))) hb
        · exact Or.inl hb
      · have hr := r5 _ _ ((e3 3 [2]).2 ⟨rfl, rfl⟩)
        rcases hb with ⟨-, -, rfl, hb⟩ | ⟨⟨hb, -⟩, -⟩ | ⟨hb, -⟩
        · obtain ⟨x, rfl, hx⟩ := anc_of_single hb
          refine Or.inr ⟨rfl, ?_⟩
          rcases (show x = 4 ∨ x = 5 by norm_num at hx; omega) with rfl | rfl <;> simp
        · exact absurd hr hb
        · rcases hb with ⟨-, hb⟩ | ⟨hb, -⟩ | ⟨⟨hb, -⟩, -⟩
          · omega
          · exact absurd hr hb
          · exact absurd hr hb
      · have hk := r4 _ _ (e4 _ _ h1 (by omega))
        rcases hb with ⟨-, hb, -⟩ | ⟨⟨-, hb, -⟩, -⟩ | ⟨-, rfl, rfl⟩
        · omega
        · exact absurd hk hb
        · exact Or.inr ⟨rfl, Or.inr (Or.inr h1')⟩
    · rintro (⟨rfl, rfl⟩ | ⟨rfl, hp⟩)
      · have h1 : m.cells.Mem 0 2 [0] := (hm _ _).2 ((widthLeaves_mem _ _).2 (Or.inl ⟨rfl, rfl⟩))
        refine ⟨2, [0], _, ⟨h1, rfl⟩, Or.inr (Or.inr ⟨Or.inr (Or.inl (asks_keep.2 ⟨fun hr => r3 _ _ hr ⟨rfl, rfl⟩, r4 _ _ (e4 _ _ h1 (by omega))⟩)), rfl, rfl⟩)⟩
      · rw [← or_assoc] at hp
        rcases hp with hp | hp
        · refine ⟨3, [2], _, ⟨h3, rfl⟩, Or.inl ⟨asks_refine.2 (r5 _ _ ((e3 3 [2]).2 ⟨rfl, rfl⟩)), by omega, rfl, ?_⟩⟩
          rcases hp with rfl | rfl <;> exact anc_single.2 (by norm_num)
        · have h1 : m.cells.Mem 0 4 p := (hm _ _).2 ((widthLeaves_mem _ _).2 (Or.inr (Or.inr ⟨rfl, hp⟩)))
          refine ⟨4, p, _, ⟨h1, rfl⟩, Or.inr (Or.inr ⟨?_, rfl, rfl⟩)⟩
          by_cases hr : t.Refine 4 p
          · exact Or.inl ⟨asks_refine.2 hr, le_rfl⟩
          · exact Or.inr (Or.inl (asks_keep.2 ⟨hr, r4 _ _ (e4 _ _ h1 (by omega))⟩))
  · rcases k5 with ⟨rfl, -⟩ | ⟨new, n1, n2⟩
    · exact hs
    · rw [n1.cellsLevels.1, n2]; exact hs
  · rcases k5 with ⟨rfl, rfl⟩ | ⟨new, n1, -⟩
    · exact ⟨c0, h⟩
    · exact ⟨new, n1⟩

open Classical in
theorem width_criteria2 {gw : Nat} {m : SubMeshes} (S : AdaptSets 0 gw m.cells m.ghosts m.all widthDomain 4) (hw : m.cells.WF 0)
    (hm : ∀ l p, m.cells.Mem 0 l p ↔ WidthAfter l p) (hall : m.all.Mem 0 1 [0]) :
    ∃ t0, (List.range' 1 (4 - 0 + 1 - 1)).foldlM (criteriaLevel 0 1 4 widthMasks2 m.cells m.all) (tagLeaves 0 m.cells) = some t0 ∧
      (∀ l q, t0.Keep l q → l ≠ 2 ∧ m.cells.Mem 0 l q) ∧ (∀ l q, ¬ t0.Refine l q) ∧ AllCoarsen t0 1 [0] ∧
      ∀ l q, m.cells.Mem 0 l q → l ≠ 2 → t0.Keep l q := by
  obtain ⟨k1, k2⟩ := tagLeaves_keep hw
  obtain ⟨t0, h1, h2, h3, h4, h5⟩ := foldRange (criteriaLevel 0 1 4 widthMasks2 m.cells m.all) (fun k t =>
      (∀ l q, t.Keep l q → (2 < k → l ≠ 2) ∧ m.cells.Mem 0 l q) ∧ (∀ l q, ¬ t.Refine l q) ∧ (2 < k → AllCoarsen t 1 [0]) ∧
      ∀ l q, m.cells.Mem 0 l q → l ≠ 2 → t.Keep l q) 1 (4 - 0 + 1 - 1) (by
    rintro k t a1 a2 ⟨i1, i2, i3, i4⟩
    obtain ⟨calls, c1, c2⟩ := S.parents k a1 (by omega)
    unfold criteriaLevel
    rw [c1]
    have ek : k - 1 + 1 = k := by omega
    have e : ∀ l q, tagCells (toRefineCell 4 widthMasks2 (k - 1)) calls (tagCells (toCoarsenCell 0 1 widthMasks2 (k - 1)) calls t) l q =
        if l = k ∧ Covers calls (parentOf q) ∧ k = 2 ∧ parentOf q = [0] then CellFlag.coarsen else t l q := by
      intro l q
      have hr : ∀ v, refinedTag 4 widthMasks2 (k - 1) q v = v := by
        intro v
        unfold refinedTag
        rw [if_neg (by simp [widthMasks2]), if_neg (by simp [widthMasks2])]
      rw [tagToRefine, hr, ite_self, tagToCoarsen, ek]
      have hc : (1 < k ∧ SmallFamily 0 widthMasks2 (k - 1) (parentOf q)) ↔ k = 2 ∧ parentOf q = [0] := by
        constructor
        · rintro ⟨-, h⟩
          obtain ⟨c, h1, h2⟩ := small_ne h
          rw [ek] at h2
          simp only [widthMasks2, Bool.and_eq_true, beq_iff_eq] at h2
          rw [h2.2, parentOf_single] at h1
          exact ⟨h2.1, by rw [← h1]; rfl⟩
        · rintro ⟨rfl, h⟩
          rw [h]
          exact ⟨by omega, by unfold SmallFamily; decide⟩
      by_cases h : l = k ∧ Covers calls (parentOf q) ∧ 1 < k ∧ SmallFamily 0 widthMasks2 (k - 1) (parentOf q)
      · rw [if_pos h, if_pos ⟨h.1, h.2.1, hc.1 h.2.2⟩]
      · rw [if_neg h, if_neg (fun h' => h ⟨h'.1, h'.2.1, hc.2 h'.2.2⟩)]
    refine ⟨_, rfl, fun l q h => ?_, fun l q h => ?_, fun h c hc => ?_, fun l q h h' => ?_⟩
    · unfold TagField.Keep at h
      rw [e] at h
      split at h
      · exact absurd h (by decide)
      · rename_i h'
        obtain ⟨j1, j2⟩ := i1 l q h
        refine ⟨fun h2 hl => ?_, j2⟩
        subst hl
        by_cases hk : k = 2
        · subst hk
          have hq := j2
          rw [hm] at hq
          have hq : q = [0] := by simpa [WidthAfter] using hq
          subst hq
          refine h' ⟨rfl, (c2 _).2 ⟨⟨[0], j2, rfl⟩, ?_⟩, rfl, ?_⟩
          · rw [parentOf_single]; exact hall
          · rw [parentOf_single]; rfl
        · exact j1 (by omega) rfl
    · unfold TagField.Refine at h
      rw [e] at h
      split at h
      · exact absurd h (by decide)
      · exact i2 l q h
    · unfold TagField.Coarsen
      rw [e]
      by_cases h3 : k = 2
      · subst h3
        rw [if_pos]
        · decide
        · refine ⟨rfl, ?_, rfl, hc⟩
          rw [hc]
          refine (c2 _).2 ⟨⟨[0], (hm _ _).2 (Or.inl ⟨rfl, rfl⟩), ?_⟩, hall⟩
          rw [parentOf_single]; rfl
      · rw [if_neg (fun h' => h3 h'.2.2.1)]
        exact i3 (by omega) c hc
    · unfold TagField.Keep
      rw [e, if_neg (by omega)]
      exact i4 l q h h') (tagLeaves 0 m.cells) ⟨fun l q h => ⟨fun h' => by omega, (k1 l q).1 h⟩, fun l q h => absurd h (k2 l q), fun h => by omega,
        fun l q h _ => (k1 l q).2 h⟩
  exact ⟨t0, h1, fun l q h => ⟨(h2 l q h).1 (by omega), (h2 l q h).2⟩, h3, h4 (by omega), h5⟩

theorem width_closed2 {cells : CA} (hm : ∀ l p, cells.Mem 0 l p ↔ WidthAfter l p) :
    Closed 0 2 1 cells (fun l _ => l ≠ 2) (fun l _ => l = 3) := by
  have hl : ∀ l p, cells.Mem 0 l p → l = 2 ∨ l = 4 := fun l p h => by
    rw [hm] at h
    unfold WidthAfter at h
    tauto
  refine ⟨?_, ?_, ?_, ?_, ?_⟩
  · intro l p q h hR _
    omega
  · intro l d c c' _ _ h3 _
    exact h3
  · intro l c _ h2
    have := hl l c h2
    omega
  · intro l c s _ _ h2
    have := hl l c h2
    omega
  · intro l p s _ _ h2 h3
    have := hl l _ h2
    omega

theorem width_step2 {c0 : CA} {m : SubMeshes} {u : CA} (h : MRMeshOK 0 ⟨1, 1⟩ c0 1 4 m u)
    (hm : ∀ l p, m.cells.Mem 0 l p ↔ WidthAfter l p) (hs : 4 ≤ m.cells.maxSize) (f : CellField K) :
    ∃ b m' u' f', harten 0 ⟨1, 1⟩ 2 1 4 0 false widthMasks2 widthDomain m u f = some (b, m', u', f') ∧
      m'.cells.Mem 0 1 [0] ∧ m'.cells.Mem 0 4 [4] := by
  obtain ⟨d1, d2, d3⟩ := widthDomain_spec
  have hbt : m.cells.Between 0 1 4 := fun l p hp => by
    rw [hm] at hp
    unfold WidthAfter at hp
    omega
  have hno : m.cells.NoOverlap 0 := by
    intro l p l' p' h h' hl ha
    rw [hm] at h h'
    rcases h with ⟨rfl, rfl⟩ | ⟨rfl, rfl | rfl | rfl | rfl⟩ <;> rcases h' with ⟨rfl, rfl⟩ | ⟨rfl, rfl | rfl | rfl | rfl⟩ <;>
      first | exact ⟨rfl, rfl⟩ | (exfalso; omega) | (exfalso; rw [anc_single] at ha; norm_num at ha)
  have hbl : m.cells.Below 0 4 8 := width_below (fun l p hp => (hm l p).1 hp) (by
    rintro l p (⟨rfl, rfl⟩ | ⟨rfl, rfl | rfl | rfl | rfl⟩)
    exacts [⟨0, rfl, by norm_num⟩, ⟨4, rfl, by norm_num⟩, ⟨5, rfl, by norm_num⟩, ⟨6, rfl, by norm_num⟩, ⟨7, rfl, by norm_num⟩])
  have S : AdaptSets 0 2 m.cells m.ghosts m.all widthDomain 4 :=
    h.sets hbt hs d1 (by omega) (D := 8) (by omega) (by unfold INT_MAX; norm_num) hbl widthDomain_below
  have h2 : m.cells.Mem 0 2 [0] := (hm _ _).2 (Or.inl ⟨rfl, rfl⟩)
  have h4 : m.cells.Mem 0 4 [4] := (hm _ _).2 (Or.inr ⟨rfl, Or.inl rfl⟩)
  have hall : m.all.Mem 0 1 [0] := by
    have := h.parent hno hbt (by omega) h2
    rwa [parentOf_single] at this
  obtain ⟨t0, e1, e2, e3, e4, e5⟩ := width_criteria2 S h.wf.1 hm hall
  obtain ⟨t, r1, r2, r3, r4, -, r6⟩ := harten_bounds S (width_closed2 hm) (by omega) e1
    (fun l q hk => (e2 l q hk).1) (fun l q hk => absurd hk (e3 l q))
  have hprop : m.cells.Proper 0 1 4 (1 + 1 + 3) :=
    ⟨h.wf.1, h.cellsLevels.2, hbt, hs, 8, by omega, by unfold INT_MAX; norm_num, hbl⟩
  obtain ⟨b, m', u', f', k1, k2, k3, k4, k5⟩ := updateFieldMr_spec (cfg := ⟨1, 1⟩) (tag := tagArray 0 m.all t) (u := u) (by omega) hprop hno f
  refine ⟨b, m', u', f', ?_, (k3 _ _).2 ?_, (k3 _ _).2 ?_⟩
  · unfold harten
    rw [r1]
    exact k1
  · refine ⟨2, [0], _, h.leafTag t |>.2 ⟨h2, rfl⟩, Or.inr (Or.inl ⟨asks_coarsen.2 ⟨fun hr => ?_, fun hk => r2 _ _ hk rfl, ?_⟩, by omega, rfl,
      anc_single.2 (by norm_num)⟩)⟩
    · have := r3 _ _ hr
      omega
    · exact r6 1 [0] e4 [0] (by rw [parentOf_single]; rfl)
  · refine ⟨4, [4], _, h.leafTag t |>.2 ⟨h4, rfl⟩, Or.inr (Or.inr ⟨Or.inr (Or.inl (asks_keep.2 ⟨fun hr => ?_, r4 _ _ (e5 _ _ h4 (by omega))⟩)), rfl, rfl⟩)⟩
    have := r3 _ _ hr
    omega

/-- C58 is false when `graduation_width` is 2: from leaves that tile the domain and are graded, one step of the adaptation gives leaves that are not
graded, and the next step gives leaves that overlap. -/
theorem C58_width2_refuted (f : CellField K) : ∃ m u, GoodDomain 0 widthDomain 1 4 7 ∧ GoodLeaves 0 widthLeaves widthDomain 1 4 ∧
    mrMesh 0 ⟨1, 1⟩ widthLeaves 1 4 = some (m, u) ∧
    ∃ b1 m1 u1 f1, harten 0 ⟨1, 1⟩ 2 1 4 0 false widthMasks1 widthDomain m u f = some (b1, m1, u1, f1) ∧ ¬ m1.cells.Graded 0 ∧
    ∃ b2 m2 u2 f2, harten 0 ⟨1, 1⟩ 2 1 4 0 false widthMasks2 widthDomain m1 u1 f1 = some (b2, m2, u2, f2) ∧ ¬ m2.cells.NoOverlap 0 := by
  obtain ⟨m, u, h1, h2⟩ := adaptInv_init (cfg := ⟨1, 1⟩) (widthDomain_good 7 (by omega)) (by decide) widthLeaves_good
  have hm : ∀ l p, m.cells.Mem 0 l p ↔ widthLeaves.Mem 0 l p := by
    obtain ⟨w1, w2, w3⟩ := widthLeaves_spec
    have hp : widthLeaves.Proper 0 1 4 (1 + 1 + 1) :=
      ⟨w1, w2, widthLeaves_good.between, by omega, 8, by omega, by unfold INT_MAX; norm_num,
        width_below (fun l p hp => (widthLeaves_mem l p).1 hp) (by
          rintro l p (⟨rfl, rfl⟩ | ⟨rfl, rfl⟩ | ⟨rfl, rfl | rfl⟩)
          exacts [⟨0, rfl, by norm_num⟩, ⟨2, rfl, by norm_num⟩, ⟨6, rfl, by norm_num⟩, ⟨7, rfl, by norm_num⟩])⟩
    obtain ⟨m', u', k1, k2⟩ := mrMesh_spec (cfg := ⟨1, 1⟩) hp
    rw [h1] at k1
    simp only [Option.some.injEq, Prod.mk.injEq] at k1
    obtain ⟨rfl, rfl⟩ := k1
    exact k2.content.choose_spec.2.1
  obtain ⟨c0, hc⟩ := h2.mesh
  obtain ⟨b1, m1, u1, f1, a1, a2, a3, c1, a4⟩ := width_step1 hc hm h2.leaves.size f
  obtain ⟨b2, m2, u2, f2, g1, g2, g3⟩ := width_step2 a4 a2 a3 f1
  refine ⟨m, u, widthDomain_good 7 (by omega), widthLeaves_good, h1, b1, m1, u1, f1, a1, fun hg => ?_, b2, m2, u2, f2, g1, fun hno => ?_⟩
  · have := hg 2 [0] 4 [4] [3] ((a2 _ _).2 (Or.inl ⟨rfl, rfl⟩)) ((a2 _ _).2 (Or.inr ⟨rfl, Or.inl rfl⟩)) (by omega)
      (List.Forall₂.cons (by norm_num) List.Forall₂.nil) (anc_single.2 (by norm_num))
    omega
  · have := (hno 1 [0] 4 [4] g2 g3 (by omega) (anc_single.2 (by norm_num))).1
    omega

/-! ### the hypotheses of C57, C58 and C59 are met -/

/-- The mesh of this file meets the hypotheses of C57 (with `graduation_width = 2`) and of C58 and C59. -/
example (f : CellField ℚ) (enlarge : Bool) (D : DetailMasks) : ∃ m u b m' u' f', mrMesh 0 ⟨1, 1⟩ widthLeaves 1 4 = some (m, u) ∧
    harten 0 ⟨1, 1⟩ 2 1 4 0 enlarge D widthDomain m u f = some (b, m', u', f') ∧ m'.cells.NoOverlap 0 := by
  obtain ⟨m, u, b, m', u', f', h1, h2, _, h3, _⟩ := C57_step 0 ⟨1, 1⟩ 2 1 4 0 widthDomain widthLeaves enlarge D f
    (widthDomain_good _ (by decide)) (by omega) (by omega) (by omega) widthLeaves_good
  exact ⟨m, u, b, m', u', f', h1, h2, h3⟩

example (calls : List (AdaptCall ℚ)) : ∃ m u m' u', mrMesh 0 ⟨1, 1⟩ widthLeaves 1 4 = some (m, u) ∧
    runAdapt 0 ⟨1, 1⟩ 1 1 4 widthDomain calls m u = some (m', u') ∧ GoodLeaves 0 m'.cells widthDomain 1 4 :=
  C58_history 0 (by omega) ⟨1, 1⟩ 1 4 widthDomain widthLeaves calls (widthDomain_good _ (by decide)) (by omega) (by omega) widthLeaves_good

example (f : CellField ℚ) : ∃ m u m' u' f', mrMesh 0 ⟨1, 1⟩ widthLeaves 1 4 = some (m, u) ∧
    adapt 0 ⟨1, 1⟩ 1 1 4 false (fun _ f => f) (fun _ _ _ => widthMasks1) widthDomain m u f = some (m', u', f') ∧
    integral 0 m'.cells f' = integral 0 m.cells f :=
  C59_integral 0 (by omega) ⟨1, 1⟩ 1 4 widthDomain widthLeaves ⟨false, fun _ f => f, fun _ _ _ => widthMasks1, f⟩ (widthDomain_good _ (by decide))
    (by omega) (by omega) widthLeaves_good fun _ _ _ _ _ => rfl

/-- C28 on a family with mixed tags. -/
example : tagCells (maximumCell 0) [([], ⟨0, 1, 1, 0⟩)] (fun l q => if l = 1 ∧ q = [0] then 1#32 else 2#32) 1 [1] = 1#32 := by decide

/-! ### a domain that is not a union of cells of `min_level` -/

def edgeCalls : List (Nat × CellCall) := [(2, .interval [] (.mk' 0 1))]

/-- One leaf: the cell 0 of level 2. -/
def edgeLeaves : CA :=
  match (CL.new 0 2).calls edgeCalls with
  | some cl => CA.ofCL cl
  | none => CA.empty 0 2

theorem edgeLeaves_numbered : edgeLeaves.numbered 0 = [(2, [0], 0)] := by decide +kernel

theorem edgeLeaves_spec : edgeLeaves.WF 0 ∧ edgeLeaves.Leveled ∧ edgeLeaves.maxSize = 2 := by
  obtain ⟨cl, h1, h2⟩ := (hist_new 0 2).calls (k := edgeCalls) (by
    simp [edgeCalls, CellCall.idx, CellCall.Valid, Interval.mk'])
  have he : edgeLeaves = CA.ofCL cl := by
    unfold edgeLeaves
    rw [h1]
  obtain ⟨a1, a2, a3, -, -⟩ := h2.array
  rw [he]
  exact ⟨a2, a3, a1⟩

theorem edgeLeaves_mem (l : Nat) (p : List Int) : edgeLeaves.Mem 0 l p ↔ l = 2 ∧ p = [0] := by
  have hw := edgeLeaves_spec.1
  constructor
  · intro h
    obtain ⟨v, hv⟩ := CA.exists_number hw h
    rw [edgeLeaves_numbered] at hv
    simp only [List.mem_cons, Prod.mk.injEq, List.not_mem_nil, or_false] at hv
    tauto
  · rintro ⟨rfl, rfl⟩
    exact CA.mem_of_numbered hw (v := 0) (by rw [edgeLeaves_numbered]; simp)

theorem edgeDomain_mem (p : List Int) : (edgeLeaves.lca 2).Mem 0 p ↔ p = [0] := by
  have h := edgeLeaves_mem 2 p
  have hs := edgeLeaves_spec.2.2
  unfold CA.Mem at h
  rw [hs] at h
  simpa using h

theorem edgeLeaves_good : GoodLeaves 0 edgeLeaves (edgeLeaves.lca 2) 1 2 := by
  obtain ⟨w1, w2, w3⟩ := edgeLeaves_spec
  refine ⟨w1, w2, by omega, fun l p h => ?_, fun l p l' p' h h' hl ha => ?_, fun l p l' p' q h h' hl hn ha => ?_, fun m => ?_⟩
  · rw [edgeLeaves_mem] at h
    omega
  · rw [edgeLeaves_mem] at h h'
    exact ⟨by omega, by rw [h.2, h'.2]⟩
  · rw [edgeLeaves_mem] at h h'
    omega
  · unfold CA.Tiles InDomain
    rw [w2 2 (by omega)]
    constructor
    · rintro ⟨l, p, -, h1, h2⟩
      obtain ⟨rfl, rfl⟩ := (edgeLeaves_mem _ _).1 h1
      exact ⟨[0], (edgeDomain_mem _).2 rfl, h2⟩
    · rintro ⟨d, h1, h2⟩
      rw [edgeDomain_mem] at h1
      subst h1
      exact ⟨2, [0], le_rfl, (edgeLeaves_mem _ _).2 ⟨rfl, rfl⟩, h2⟩

open Classical in
/-- C57 without the hypothesis that the domain is a union of cells of `min_level` is false, for every graduation width: the domain is the cell 0 of level 2
and its only leaf is coarsened together with its sibling, which is outside the domain: the new leaf covers a cell outside the domain. -/
theorem C57_domain_refuted (gw : Nat) (hgw : gw ≤ 1000) (f : CellField K) : ∃ m u b m' u' f',
    GoodLeaves 0 edgeLeaves (edgeLeaves.lca 2) 1 2 ∧ mrMesh 0 ⟨1, 1⟩ edgeLeaves 1 2 = some (m, u) ∧
    harten 0 ⟨1, 1⟩ gw 1 2 0 false widthMasks2 (edgeLeaves.lca 2) m u f = some (b, m', u', f') ∧
    m'.cells.Tiles 0 2 [1] ∧ ¬ InDomain 0 (edgeLeaves.lca 2) 2 [1] := by
  obtain ⟨w1, w2, w3⟩ := edgeLeaves_spec
  have below : ∀ cells : CA, (∀ l p, cells.Mem 0 l p ↔ edgeLeaves.Mem 0 l p) → cells.Below 0 2 8 := by
    intro cells hm l p hp x hx
    rw [hm, edgeLeaves_mem] at hp
    obtain ⟨rfl, rfl⟩ := hp
    simp only [List.mem_singleton] at hx
    subst hx
    norm_num
  have hp : edgeLeaves.Proper 0 1 2 (1 + 1 + 1) :=
    ⟨w1, w2, edgeLeaves_good.between, by omega, 8, by omega, by unfold INT_MAX; norm_num, below _ fun _ _ => Iff.rfl⟩
  obtain ⟨m, u, h1, h⟩ := mrMesh_spec (cfg := ⟨1, 1⟩) hp
  have hm : ∀ l p, m.cells.Mem 0 l p ↔ edgeLeaves.Mem 0 l p := h.content.choose_spec.2.1
  have hs : 2 ≤ m.cells.maxSize := by rw [h.cellsLevels.1]; omega
  have hbt : m.cells.Between 0 1 2 := fun l p hp => edgeLeaves_good.between l p ((hm l p).1 hp)
  have hno : m.cells.NoOverlap 0 := fun l p l' p' hp hp' => edgeLeaves_good.noOverlap l p l' p' ((hm l p).1 hp) ((hm l' p').1 hp')
  have S : AdaptSets 0 gw m.cells m.ghosts m.all (edgeLeaves.lca 2) 2 := by
    refine h.sets hbt hs (w1 2 (by omega)) (by rw [w2 2 (by omega)]) (D := 8) (by omega) ?_ (below _ hm) ?_
    · unfold INT_MAX
      push_cast
      omega
    · intro p hp x hx
      rw [edgeDomain_mem] at hp
      subst hp
      simp only [List.mem_singleton] at hx
      subst hx
      norm_num
  have h2 : m.cells.Mem 0 2 [0] := (hm _ _).2 ((edgeLeaves_mem _ _).2 ⟨rfl, rfl⟩)
  have hall : m.all.Mem 0 1 [0] := by
    have := h.parent hno hbt (by omega) h2
    rwa [parentOf_single] at this
  obtain ⟨k1, k2⟩ := tagLeaves_keep h.wf.1
  obtain ⟨t0, e1, e2, e3, e4⟩ := foldRange (criteriaLevel 0 1 2 widthMasks2 m.cells m.all) (fun k t =>
      (∀ l q, t.Keep l q → 2 < k → l ≠ 2) ∧ (∀ l q, t.Keep l q → m.cells.Mem 0 l q) ∧ (∀ l q, ¬ t.Refine l q) ∧
      (2 < k → AllCoarsen t 1 [0])) 1 (2 - 0 + 1 - 1) (by
    rintro k t a1 a2 ⟨i1, i2, i3, i4⟩
    obtain ⟨calls, c1, c2⟩ := S.parents k a1 (by omega)
    unfold criteriaLevel
    rw [c1]
    have ek : k - 1 + 1 = k := by omega
    have e : ∀ l q, tagCells (toRefineCell 2 widthMasks2 (k - 1)) calls (tagCells (toCoarsenCell 0 1 widthMasks2 (k - 1)) calls t) l q =
        if l = k ∧ Covers calls (parentOf q) ∧ k = 2 ∧ parentOf q = [0] then CellFlag.coarsen else t l q := by
      intro l q
      have hr : ∀ v, refinedTag 2 widthMasks2 (k - 1) q v = v := by
        intro v
        unfold refinedTag
        rw [if_neg (by simp [widthMasks2]), if_neg (by simp [widthMasks2])]
      rw [tagToRefine, hr, ite_self, tagToCoarsen, ek]
      have hc : (1 < k ∧ SmallFamily 0 widthMasks2 (k - 1) (parentOf q)) ↔ k = 2 ∧ parentOf q = [0] := by
        constructor
        · rintro ⟨-, h⟩
          obtain ⟨c, h1, h2⟩ := small_ne h
          rw [ek] at h2
          simp only [widthMasks2, Bool.and_eq_true, beq_iff_eq] at h2
          rw [h2.2, parentOf_single] at h1
          exact ⟨h2.1, by rw [← h1]; rfl⟩
        · rintro ⟨rfl, h⟩
          rw [h]
          exact ⟨by omega, by unfold SmallFamily; decide⟩
      by_cases h : l = k ∧ Covers calls (parentOf q) ∧ 1 < k ∧ SmallFamily 0 widthMasks2 (k - 1) (parentOf q)
      · rw [if_pos h, if_pos ⟨h.1, h.2.1, hc.1 h.2.2⟩]
      · rw [if_neg h, if_neg (fun h' => h ⟨h'.1, h'.2.1, hc.2 h'.2.2⟩)]
    have cov : k = 2 → Covers calls [0] := by
      rintro rfl
      exact (c2 _).2 ⟨⟨[0], h2, by rw [parentOf_single]; rfl⟩, hall⟩
    refine ⟨_, rfl, fun l q h h' hl => ?_, fun l q h => ?_, fun l q h => ?_, fun h c hc => ?_⟩
    · unfold TagField.Keep at h
      rw [e] at h
      split at h
      · exact absurd h (by decide)
      · rename_i hno
        subst hl
        by_cases hk : k = 2
        · have hq := i2 2 q h
          rw [hm, edgeLeaves_mem] at hq
          have : parentOf q = [0] := by rw [hq.2, parentOf_single]; rfl
          exact hno ⟨hk.symm, by rw [this]; exact cov hk, hk, this⟩
        · omega
    · unfold TagField.Keep at h
      rw [e] at h
      split at h
      · exact absurd h (by decide)
      · exact i2 l q h
    · unfold TagField.Refine at h
      rw [e] at h
      split at h
      · exact absurd h (by decide)
      · exact i3 l q h
    · have hk : k = 2 := by omega
      unfold TagField.Coarsen
      rw [e, if_pos ⟨by omega, by rw [hc]; exact cov hk, hk, hc⟩]
      decide) (tagLeaves 0 m.cells) ⟨fun l q _ h => by omega, fun l q h => (k1 l q).1 h, k2, fun h => by omega⟩
  have C : Closed 0 gw 1 m.cells (fun l _ => l ≠ 2) (fun _ _ => False) := by
    have hl : ∀ l p, m.cells.Mem 0 l p → l = 2 := fun l p h => ((edgeLeaves_mem l p).1 ((hm l p).1 h)).1
    refine ⟨fun l p q _ h => absurd h id, fun l d c c' _ _ h _ => h, fun l c _ h => ?_, fun l c s _ _ h => ?_, fun l p s _ _ h h' => h' (hl _ _ h)⟩
    · have := hl _ _ h; omega
    · have := hl _ _ h; omega
  obtain ⟨t, r1, r2, r3, -, -, r6⟩ := harten_bounds S C (by omega) e1 (fun l q h => e2 l q h (by omega)) (fun l q h => e4.1 l q h)
  have hprop : m.cells.Proper 0 1 2 (1 + 1 + 3) :=
    ⟨h.wf.1, h.cellsLevels.2, hbt, hs, 8, by omega, by unfold INT_MAX; norm_num, below _ hm⟩
  obtain ⟨b, m', u', f', j1, j2, j3, -⟩ := updateFieldMr_spec (cfg := ⟨1, 1⟩) (tag := tagArray 0 m.all t) (u := u) (by omega) hprop hno f
  refine ⟨m, u, b, m', u', f', edgeLeaves_good, h1, ?_, ⟨1, [0], by omega, (j3 _ _).2 ?_, anc_single.2 (by norm_num)⟩, ?_⟩
  · unfold harten
    rw [r1]
    exact j1
  · exact ⟨2, [0], _, h.leafTag t |>.2 ⟨h2, rfl⟩, Or.inr (Or.inl ⟨asks_coarsen.2 ⟨fun hr => r3 _ _ hr, fun hk => r2 _ _ hk rfl,
      r6 1 [0] (e4.2 (by omega)) [0] (by rw [parentOf_single]; rfl)⟩, by omega, rfl, anc_single.2 (by norm_num)⟩)⟩
  · rintro ⟨d, hd, ha⟩
    rw [edgeDomain_mem] at hd
    subst hd
    rw [w2 2 (by omega), anc_single] at ha
    norm_num at ha

end Samurai
