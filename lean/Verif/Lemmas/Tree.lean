import Verif.Lemmas.Leaf
import Verif.Spec.Subset

namespace Samurai

namespace Expr

/-- Same shape, with related leaves. -/
def Rel {α β : Type} (R : α → β → Prop) : Expr α → Expr β → Prop
  | leaf a, leaf b => R a b
  | op f a b, op f' a' b' => f = f' ∧ a.Rel R a' ∧ b.Rel R b'
  | _, _ => False

/-- What `eval` computes in direction `d`: exact for `d = 0`, an over-approximation of the difference
above. -/
def HoldsD {α : Type} (d : Nat) (f : α → Prop) : Expr α → Prop
  | leaf a => f a
  | op .inter a b => a.HoldsD d f ∧ b.HoldsD d f
  | op .union a b => a.HoldsD d f ∨ b.HoldsD d f
  | op .diff a b => if d > 0 then a.HoldsD d f ∨ b.HoldsD d f else a.HoldsD d f ∧ ¬ b.HoldsD d f

variable {α β γ : Type}

theorem Rel.refl {R : α → α → Prop} (h : ∀ a, R a a) (t : Expr α) : t.Rel R t := by
  induction t with
  | leaf a => exact h a
  | op f a b iha ihb => exact ⟨rfl, iha, ihb⟩

theorem Rel.mono {R S : α → β → Prop} (h : ∀ a b, R a b → S a b) {t : Expr α} :
    ∀ {t' : Expr β}, t.Rel R t' → t.Rel S t' := by
  induction t with
  | leaf a => intro t' h'; cases t' with
    | leaf b => exact h _ _ h'
    | op => exact h'.elim
  | op f a b iha ihb => intro t' h'; cases t' with
    | leaf b => exact h'.elim
    | op => exact ⟨h'.1, iha h'.2.1, ihb h'.2.2⟩

theorem Rel.trans {R : α → β → Prop} {S : β → γ → Prop} {T : α → γ → Prop}
    (h : ∀ a b c, R a b → S b c → T a c) {t : Expr α} :
    ∀ {t' : Expr β} {t'' : Expr γ}, t.Rel R t' → t'.Rel S t'' → t.Rel T t'' := by
  induction t with
  | leaf a => intro t' t'' h' h''; cases t' with
    | leaf b => cases t'' with
      | leaf c => exact h _ _ _ h' h''
      | op => exact h''.elim
    | op => exact h'.elim
  | op f a b iha ihb => intro t' t'' h' h''; cases t' with
    | leaf b => exact h'.elim
    | op => cases t'' with
      | leaf c => exact h''.elim
      | op => exact ⟨h'.1.trans h''.1, iha h'.2.1 h''.2.1, ihb h'.2.2 h''.2.2⟩

theorem Rel.symm {R : α → β → Prop} {S : β → α → Prop} (h : ∀ a b, R a b → S b a) {t : Expr α} :
    ∀ {t' : Expr β}, t.Rel R t' → t'.Rel S t := by
  induction t with
  | leaf a => intro t' h'; cases t' with
    | leaf b => exact h _ _ h'
    | op => exact h'.elim
  | op f a b iha ihb => intro t' h'; cases t' with
    | leaf b => exact h'.elim
    | op => exact ⟨h'.1.symm, iha h'.2.1, ihb h'.2.2⟩

/-- Strengthen the relation with a fact on the left leaves. -/
theorem Rel.with {R : α → β → Prop} {P : α → Prop} {S : α → β → Prop} (h : ∀ a b, P a → R a b → S a b)
    {t : Expr α} : ∀ {t' : Expr β}, t.All P → t.Rel R t' → t.Rel S t' := by
  induction t with
  | leaf a => intro t' hp h'; cases t' with
    | leaf b => exact h _ _ hp h'
    | op => exact h'.elim
  | op f a b iha ihb => intro t' hp h'; cases t' with
    | leaf b => exact h'.elim
    | op => exact ⟨h'.1, iha hp.1 h'.2.1, ihb hp.2 h'.2.2⟩

theorem Rel.all {R : α → β → Prop} {Q : β → Prop} (h : ∀ a b, R a b → Q b) {t : Expr α} :
    ∀ {t' : Expr β}, t.Rel R t' → t'.All Q := by
  induction t with
  | leaf a => intro t' h'; cases t' with
    | leaf b => exact h _ _ h'
    | op => exact h'.elim
  | op f a b iha ihb => intro t' h'; cases t' with
    | leaf b => exact h'.elim
    | op => exact ⟨iha h'.2.1, ihb h'.2.2⟩

theorem Rel.allWith {R : α → β → Prop} {P : α → Prop} {Q : β → Prop} {t : Expr α} {t' : Expr β}
    (h' : t.Rel R t') (hp : t.All P) (h : ∀ a b, P a → R a b → Q b) : t'.All Q :=
  Rel.all (R := fun a b => P a ∧ R a b) (fun a b hab => h a b hab.1 hab.2)
    (Rel.with (P := P) (fun _ _ h1 h2 => ⟨h1, h2⟩) hp h')

theorem All.mono {P Q : α → Prop} (h : ∀ a, P a → Q a) {t : Expr α} (ht : t.All P) : t.All Q := by
  induction t with
  | leaf a => exact h _ ht
  | op f a b iha ihb => exact ⟨iha ht.1, ihb ht.2⟩

theorem All.and {P Q : α → Prop} {t : Expr α} (h1 : t.All P) (h2 : t.All Q) : t.All fun a => P a ∧ Q a := by
  induction t with
  | leaf a => exact ⟨h1, h2⟩
  | op f a b iha ihb => exact ⟨iha h1.1 h2.1, ihb h1.2 h2.2⟩

theorem all_true (t : Expr α) {P : α → Prop} (h : ∀ a, P a) : t.All P := by
  induction t with
  | leaf a => exact h a
  | op f a b iha ihb => exact ⟨iha, ihb⟩

/-- Leaves related by a function that can fail. -/
theorem mapM_spec {P : α → Prop} {f : α → Option β} {R : α → β → Prop}
    (h : ∀ a, P a → ∃ b, f a = some b ∧ R a b) {t : Expr α} (ht : t.All P) :
    ∃ t', t.mapM f = some t' ∧ t.Rel R t' := by
  induction t with
  | leaf a =>
    obtain ⟨b, h1, h2⟩ := h a ht
    exact ⟨leaf b, by simp [mapM, h1], h2⟩
  | op g a b iha ihb =>
    obtain ⟨a', h1, h2⟩ := iha ht.1
    obtain ⟨b', h3, h4⟩ := ihb ht.2
    exact ⟨op g a' b', by simp [mapM, h1, h3], rfl, h2, h4⟩

theorem rel_map {R : α → β → Prop} {P : α → Prop} {f : α → β} (h : ∀ a, P a → R a (f a)) {t : Expr α}
    (ht : t.All P) : t.Rel R (t.map f) := by
  induction t with
  | leaf a => exact h a ht
  | op g a b iha ihb => exact ⟨rfl, iha ht.1, ihb ht.2⟩

theorem holdsD_congr {d : Nat} {f : α → Prop} {g : β → Prop} {t : Expr α} :
    ∀ {t' : Expr β}, t.Rel (fun a b => f a ↔ g b) t' → (t.HoldsD d f ↔ t'.HoldsD d g) := by
  induction t with
  | leaf a => intro t' h; cases t' with
    | leaf b => exact h
    | op => exact h.elim
  | op o a b iha ihb => intro t' h; cases t' with
    | leaf b => exact h.elim
    | op o' a' b' =>
      obtain ⟨rfl, h1, h2⟩ := h
      cases o <;> simp only [HoldsD, iha h1, ihb h2]

theorem holdsD_congr' {d : Nat} {f g : α → Prop} {t : Expr α} (h : t.All fun a => f a ↔ g a) :
    t.HoldsD d f ↔ t.HoldsD d g := by
  apply holdsD_congr
  have : t.Rel (fun a b : α => a = b) t := Rel.refl (fun _ => rfl) t
  exact Rel.with (fun a b h1 h2 => by subst h2; exact h1) h this

theorem holdsD_false {d : Nat} {f : α → Prop} {t : Expr α} (h : t.All fun a => ¬ f a) : ¬ t.HoldsD d f := by
  induction t with
  | leaf a => exact h
  | op o a b iha ihb =>
    have h1 := iha h.1
    have h2 := ihb h.2
    cases o <;> simp only [HoldsD]
    · tauto
    · tauto
    · split <;> tauto

theorem eval_holdsD {d : Nat} {e : α → Bool} {f : α → Prop} {t : Expr α} (h : t.All fun a => e a = true ↔ f a) :
    t.eval d e = true ↔ t.HoldsD d f := by
  induction t with
  | leaf a => exact h
  | op o a b iha ihb =>
    have h1 := iha h.1
    have h2 := ihb h.2
    cases o
    · simp [eval, HoldsD, Fn.eval, h1, h2]
    · simp [eval, HoldsD, Fn.eval, h1, h2]
    · simp only [eval, HoldsD, Fn.eval]
      split
      · simp [h1, h2]
      · simp [h1, ← h2]

theorem holdsD_zero {f : α → Prop} {t : Expr α} : t.HoldsD 0 f ↔ t.Holds f := by
  induction t with
  | leaf a => exact Iff.rfl
  | op o a b iha ihb => cases o <;> simp [HoldsD, Holds, iha, ihb]

/-- Prefix closure: what holds exactly below holds approximately above. -/
theorem holdsD_mono {d e : Nat} (hd : 0 < d) {f g : α → Prop} {t : Expr α} (h : t.All fun a => f a → g a)
    (ht : t.HoldsD e f) : t.HoldsD d g := by
  induction t with
  | leaf a => exact h ht
  | op o a b iha ihb =>
    cases o
    · exact ⟨iha h.1 ht.1, ihb h.2 ht.2⟩
    · exact ht.imp (iha h.1) (ihb h.2)
    · simp only [HoldsD] at ht ⊢
      rw [if_pos hd]
      split at ht
      · exact ht.imp (iha h.1) (ihb h.2)
      · exact Or.inl (iha h.1 ht.1)

theorem min_le (f : α → Int) (t : Expr α) : t.All fun a => t.min f ≤ f a := by
  induction t with
  | leaf a => exact le_rfl
  | op o a b iha ihb =>
    have h1 : (op o a b).min f ≤ a.min f := by simp only [min]; split <;> omega
    have h2 : (op o a b).min f ≤ b.min f := by simp only [min]; split <;> omega
    exact ⟨iha.mono fun x hx => h1.trans hx, ihb.mono fun x hx => h2.trans hx⟩

theorem le_min {f : α → Int} {t : Expr α} {s : Int} (h : t.All fun a => s ≤ f a) : s ≤ t.min f := by
  induction t with
  | leaf a => exact h
  | op o a b iha ihb =>
    have := iha h.1
    have := ihb h.2
    simp only [min]; split <;> assumption

theorem max_spec {f : α → Option Int} {P : α → Int → Prop} {c : Int} {t : Expr α}
    (hmono : ∀ a m m', P a m → m ≤ m' → P a m')
    (h : t.All fun a => ∃ m, f a = some m ∧ m < c ∧ P a m) :
    ∃ m, t.max f = some m ∧ m < c ∧ t.All fun a => P a m := by
  induction t with
  | leaf a => obtain ⟨m, h1, h2, h3⟩ := h; exact ⟨m, h1, h2, h3⟩
  | op o a b iha ihb =>
    obtain ⟨m, h1, h2, h3⟩ := iha h.1
    obtain ⟨m', h1', h2', h3'⟩ := ihb h.2
    refine ⟨if m < m' then m' else m, by simp [max, h1, h1'], by split <;> assumption, ?_, ?_⟩
    · exact h3.mono fun a ha => hmono a _ _ ha (by split <;> omega)
    · exact h3'.mono fun a ha => hmono a _ _ ha (by split <;> omega)

theorem weight_rel {w : α → Nat} {w' : β → Nat} {t : Expr α} : ∀ {t' : Expr β},
    t.Rel (fun a b => w' b ≤ w a) t' → t'.weight w' ≤ t.weight w := by
  induction t with
  | leaf a => intro t' h; cases t' with
    | leaf b => exact h
    | op => exact h.elim
  | op o a b iha ihb => intro t' h; cases t' with
    | leaf b => exact h.elim
    | op o' a' b' =>
      have := iha h.2.1
      have := ihb h.2.2
      simp only [weight]; omega

theorem weight_lt {w : α → Nat} {w' : β → Nat} {f : α → Int} {s : Int} {t : Expr α} : ∀ {t' : Expr β},
    t.Rel (fun a b => w' b ≤ w a ∧ (s = f a → w' b < w a)) t' → s = t.min f → t'.weight w' < t.weight w := by
  induction t with
  | leaf a => intro t' h hs; cases t' with
    | leaf b => exact h.2 hs
    | op => exact h.elim
  | op o a b iha ihb => intro t' h hs; cases t' with
    | leaf b => exact h.elim
    | op o' a' b' =>
      have h1 := weight_rel (h.2.1.mono fun a b h => h.1)
      have h2 := weight_rel (h.2.2.mono fun a b h => h.1)
      simp only [min] at hs
      simp only [weight]
      split at hs
      · have := iha h.2.1 hs; omega
      · have := ihb h.2.2 hs; omega

end Expr

/-! ### the loop -/

/-- States that agree in the current direction and above. -/
structure Leaf.Same (l l' : Leaf) : Prop where
  node : l'.node = l.node
  shift : l'.shift = l.shift
  d : l'.d = l.d
  up : ∀ d', l.d ≤ d' → l'.dims d' = l.dims d'

theorem Leaf.Same.st {l l' : Leaf} (h : l.Same l') : l'.st = l.st := by
  unfold Leaf.st; rw [h.d]; exact h.up _ le_rfl

theorem Leaf.Same.static {l l' : Leaf} (h : l.Same l') : l.Static l' := by
  have := h.st
  exact ⟨h.node, h.shift, h.d, fun d' hd => h.up d' hd.le, by rw [this], by rw [this], by rw [this], by rw [this],
    by rw [this], by rw [this], by rw [this]⟩

theorem Leaf.Same.refl (l : Leaf) : l.Same l := ⟨rfl, rfl, rfl, fun _ _ => rfl⟩

theorem Leaf.Same.trans {a b c : Leaf} (h : a.Same b) (h' : b.Same c) : a.Same c :=
  ⟨h'.node.trans h.node, h'.shift.trans h.shift, h'.d.trans h.d,
    fun d' hd => (h'.up d' (by rw [h.d]; exact hd)).trans (h.up d' hd)⟩

/-- What the sweep computes in direction `d` from the views. -/
def TreeMem (n d : Nat) (t : Expr Leaf) (x : Int) : Prop := t.HoldsD d fun l => MemList x (l.view n)

theorem TreeMem.static {n d : Nat} {t t' : Expr Leaf} (h : t.Rel Leaf.Static t') (x : Int) :
    TreeMem n d t' x ↔ TreeMem n d t x := by
  unfold TreeMem
  exact (Expr.holdsD_congr (h.mono fun a b hab => by rw [hab.view])).symm

/-- Invariant of the loop. -/
structure SweepInv (n d : Nat) (sent : Int) (t : Expr Leaf) (scan : Int) (rip : Bool) (rs : Int) : Prop where
  ok : t.All (Leaf.OK n)
  pos : t.All fun l => l.At n sent scan
  min : scan = t.min Leaf.min
  last : t.All fun l => ∀ x, MemList x (l.view n) → x < sent - 1
  inRun : rip = true ↔ TreeMem n d t (scan - 1)
  runStart : rip = true → rs < scan

theorem Expr.Rel.statics {a b c : Expr Leaf} (h : a.Rel Leaf.Static b) (h' : b.Rel Leaf.Static c) :
    a.Rel Leaf.Static c := Expr.Rel.trans (R := Leaf.Static) (S := Leaf.Static) (T := Leaf.Static) (fun _ _ _ x y => Leaf.Static.trans x y) h h'

theorem sweepLoop_spec {n d : Nat} {sent : Int} (hsent : sent < INT_MAX)
    {sub : Interval → Expr Leaf → Option (Expr Leaf × List Call)} {t0 : Expr Leaf} (Q : Interval → List Call → Prop)
    (hsub : ∀ I t, t0.Rel Leaf.Static t → I.start < I.stop → I.step = 1 ∧ I.index = 0 →
      ∃ t' o, sub I t = some (t', o) ∧ t.Rel Leaf.Same t' ∧ Q I o)
    (fuel : Nat) : ∀ {t : Expr Leaf} {scan : Int} {rip : Bool} {rs : Int}, t0.Rel Leaf.Static t →
    SweepInv n d sent t scan rip rs → t.weight Leaf.left < fuel →
    ∃ t' R os, sweepLoop n d sent sub fuel t scan rip rs = some (t', os.flatten) ∧ t.Rel Leaf.Static t' ∧
      List.Forall₂ Q R os ∧ CanonFrom (if rip then rs - 1 else scan - 1) R ∧ (∀ i ∈ R, i.step = 1 ∧ i.index = 0) ∧
      ∀ x, MemList x R ↔ (rip = true ∧ rs ≤ x ∧ x < scan) ∨ (scan ≤ x ∧ TreeMem n d t x) := by
  induction fuel with
  | zero => intro t scan rip rs _ _ h; omega
  | succ fuel ih =>
    intro t scan rip rs ht0 hinv hf
    unfold sweepLoop
    by_cases hs : scan < sent
    swap
    · -- the end
      have hfalse : ∀ x, scan - 1 ≤ x → ¬ TreeMem n d t x := fun x hx =>
        Expr.holdsD_false (hinv.last.mono fun l hl hm => by have := hl x hm; omega)
      have hr : rip = false := by
        rw [← Bool.not_eq_true, hinv.inRun]
        exact hfalse _ le_rfl
      rw [if_neg hs]
      refine ⟨t, [], [], rfl, Expr.Rel.refl Leaf.Static.refl t, .nil, trivial, by simp, fun x => ?_⟩
      simp only [hr, memList_nil, false_iff, Bool.false_eq_true, false_and, false_or, not_and]
      intro hx
      exact hfalse x (by omega)
    · rw [if_pos hs]
      have hcur : t.All fun l => scan ≤ l.st.cur := by
        rw [hinv.min]; exact Expr.min_le _ t
      have heval : t.eval d (Leaf.eval scan) = true ↔ TreeMem n d t scan := by
        apply Expr.eval_holdsD
        exact ((hinv.ok.and hinv.pos).and hcur).mono fun l hl => hl.1.2.eval hl.1.1 hl.2 hs
      -- what the update gives
      have hupd : ∀ t1 : Expr Leaf, t.Rel Leaf.Same t1 → ∃ t2, t1.mapM (Leaf.update n scan sent) = some t2 ∧
          t1.Rel (fun l l' => l.Static l' ∧ l'.At n sent (scan + 1) ∧ scan + 1 ≤ l'.st.cur ∧ l'.left ≤ l.left ∧
            (scan = l.st.cur → l'.left < l.left)) t2 := by
        intro t1 h1
        apply Expr.mapM_spec (P := fun l => l.OK n ∧ l.At n sent scan ∧ scan ≤ l.st.cur)
        · intro l hl
          exact Leaf.update_spec hl.1 hl.2.1 hl.2.2 hs hsent
        · refine h1.allWith ((hinv.ok.and hinv.pos).and hcur) ?_
          intro a b ha hab
          exact ⟨hab.static.ok ha.1.1, ha.1.2.static hab.static hab.st, by rw [hab.st]; exact ha.2⟩
      -- constancy up to the next boundary, and the next invariant
      have hnext : ∀ t1 t2 : Expr Leaf, t.Rel Leaf.Same t1 →
          t1.Rel (fun l l' => l.Static l' ∧ l'.At n sent (scan + 1) ∧ scan + 1 ≤ l'.st.cur ∧ l'.left ≤ l.left ∧
            (scan = l.st.cur → l'.left < l.left)) t2 →
          t.Rel Leaf.Static t2 ∧ scan < t2.min Leaf.min ∧
          (∀ x, scan ≤ x → x < t2.min Leaf.min → (TreeMem n d t x ↔ TreeMem n d t scan)) ∧
          t2.weight Leaf.left < fuel ∧
          ∀ rip' rs', (rip' = true ↔ TreeMem n d t scan) → (rip' = true → rs' < t2.min Leaf.min) →
            SweepInv n d sent t2 (t2.min Leaf.min) rip' rs' := by
        intro t1 t2 h1 h2
        have hst : t.Rel Leaf.Static t2 :=
          Expr.Rel.trans (fun a b c hab hbc => hab.trans hbc.1) (h1.mono fun a b h => h.static) h2
        have hok2 : t2.All (Leaf.OK n) :=
          hst.allWith hinv.ok fun a b ha hab => hab.ok ha
        have hat2 : t2.All fun l => l.At n sent (scan + 1) := h2.all fun a b h => h.2.1
        have hlt : scan + 1 ≤ t2.min Leaf.min := Expr.le_min (h2.all fun a b h => h.2.2.1)
        have hmin2 := Expr.min_le Leaf.min t2
        have hconst : ∀ x, scan ≤ x → x < t2.min Leaf.min → (TreeMem n d t x ↔ TreeMem n d t scan) := by
          intro x hx1 hx2
          rw [← TreeMem.static hst, ← TreeMem.static hst]
          apply Expr.holdsD_congr'
          refine ((hok2.and hat2).and hmin2).mono fun l hl => ?_
          have hl2 : t2.min Leaf.min ≤ l.st.cur := hl.2
          rw [hl.1.2.mem hl.1.1 (by omega) (by omega), hl.1.2.mem hl.1.1 (by omega) (by omega)]
        refine ⟨hst, by omega, hconst, ?_, ?_⟩
        · have h3 : t.Rel (fun l l' => l'.left ≤ l.left ∧ (scan = Leaf.min l → l'.left < l.left)) t2 := by
            refine Expr.Rel.trans ?_ h1 h2
            intro a b c hab hbc
            have e1 : b.left = a.left := by unfold Leaf.left; rw [hab.st]
            have e2 : b.st.cur = a.st.cur := by rw [hab.st]
            rw [← e1]
            exact ⟨hbc.2.2.2.1, fun he => hbc.2.2.2.2 (by rw [e2]; exact he)⟩
          have := Expr.weight_lt h3 hinv.min
          omega
        · intro rip' rs' hr1 hr2
          refine ⟨hok2, ?_, rfl, ?_, ?_, hr2⟩
          · exact ((hok2.and hat2).and hmin2).mono fun l hl => hl.1.2.jump hl.1.1 hlt hl.2
          · refine hst.allWith hinv.last ?_
            intro a b ha hab
            rw [hab.view]; exact ha
          · rw [hr1, TreeMem.static hst]; exact (hconst _ (by omega) (by omega)).symm
      by_cases hB : TreeMem n d t scan
      · -- in the result
        have hev : t.eval d (Leaf.eval scan) = true := heval.2 hB
        cases hrip : rip with
        | false =>
          -- a new interval begins
          have hbody : sweepBody d sub t scan false rs = some (t, true, scan, []) := by
            unfold sweepBody; rw [hev]; rfl
          rw [hbody]
          obtain ⟨t2, g1, g2⟩ := hupd t (Expr.Rel.refl Leaf.Same.refl t)
          obtain ⟨k1, k2, k3, k4, k5⟩ := hnext t t2 (Expr.Rel.refl Leaf.Same.refl t) g2
          simp only [g1]
          obtain ⟨t3, R, os, r1, r2, r3, r4, r4', r5⟩ := ih (ht0.statics k1)
            (k5 true scan (by simp [hB]) (fun _ => k2)) k4
          rw [r1]
          refine ⟨t3, R, os, rfl, k1.statics r2, r3, by simpa using r4, r4', fun x => ?_⟩
          rw [r5, TreeMem.static k1]
          simp only [true_and, Bool.false_eq_true, false_and, false_or]
          constructor
          · rintro (⟨h1, h2⟩ | ⟨h1, h2⟩)
            · exact ⟨h1, (k3 x h1 h2).2 hB⟩
            · exact ⟨by omega, h2⟩
          · rintro ⟨h1, h2⟩
            by_cases hx : x < t2.min Leaf.min
            · exact Or.inl ⟨h1, hx⟩
            · exact Or.inr ⟨by omega, h2⟩
        | true =>
          have hbody : sweepBody d sub t scan true rs = some (t, true, rs, []) := by
            unfold sweepBody; rw [hev]; rfl
          have hrs := hinv.runStart hrip
          rw [hbody]
          obtain ⟨t2, g1, g2⟩ := hupd t (Expr.Rel.refl Leaf.Same.refl t)
          obtain ⟨k1, k2, k3, k4, k5⟩ := hnext t t2 (Expr.Rel.refl Leaf.Same.refl t) g2
          simp only [g1]
          obtain ⟨t3, R, os, r1, r2, r3, r4, r4', r5⟩ := ih (ht0.statics k1)
            (k5 true rs (by simp [hB]) (fun _ => by omega)) k4
          rw [r1]
          refine ⟨t3, R, os, rfl, k1.statics r2, r3, by simpa using r4, r4', fun x => ?_⟩
          rw [r5, TreeMem.static k1]
          simp only [true_and]
          constructor
          · rintro (⟨h1, h2⟩ | ⟨h1, h2⟩)
            · by_cases hx : x < scan
              · exact Or.inl ⟨h1, hx⟩
              · exact Or.inr ⟨by omega, (k3 x (by omega) h2).2 hB⟩
            · exact Or.inr ⟨by omega, h2⟩
          · rintro (⟨h1, h2⟩ | ⟨h1, h2⟩)
            · exact Or.inl ⟨h1, by omega⟩
            · by_cases hx : x < t2.min Leaf.min
              · exact Or.inl ⟨by omega, hx⟩
              · exact Or.inr ⟨by omega, h2⟩
      · have hev : t.eval d (Leaf.eval scan) = false := by
          rw [← Bool.not_eq_true, heval]; exact hB
        cases hrip : rip with
        | false =>
          have hbody : sweepBody d sub t scan false rs = some (t, false, rs, []) := by
            unfold sweepBody; rw [hev]; rfl
          rw [hbody]
          obtain ⟨t2, g1, g2⟩ := hupd t (Expr.Rel.refl Leaf.Same.refl t)
          obtain ⟨k1, k2, k3, k4, k5⟩ := hnext t t2 (Expr.Rel.refl Leaf.Same.refl t) g2
          simp only [g1]
          obtain ⟨t3, R, os, r1, r2, r3, r4, r4', r5⟩ := ih (ht0.statics k1)
            (k5 false rs (by simp [hB]) (fun h => by cases h)) k4
          rw [r1]
          refine ⟨t3, R, os, rfl, k1.statics r2, r3, ?_, r4', fun x => ?_⟩
          · simp only [Bool.false_eq_true, if_false] at r4 ⊢
            exact r4.mono (by omega)
          · rw [r5, TreeMem.static k1]
            simp only [Bool.false_eq_true, false_and, false_or]
            constructor
            · rintro ⟨h1, h2⟩
              exact ⟨by omega, h2⟩
            · rintro ⟨h1, h2⟩
              refine ⟨?_, h2⟩
              by_contra hc
              exact hB ((k3 x h1 (by omega)).1 h2)
        | true =>
          -- an interval ends
          have hrs := hinv.runStart hrip
          obtain ⟨t1, o, q1, q2, q3⟩ := hsub (Interval.mk' rs scan) t ht0 hrs ⟨rfl, rfl⟩
          have hval : (Interval.mk' rs scan).isValid = true := by
            simp only [Interval.isValid, Interval.mk']; exact decide_eq_true hrs
          have hbody : sweepBody d sub t scan true rs = some (t1, false, rs, o) := by
            unfold sweepBody
            simp only [hev, hval, q1, Bool.false_xor, if_true, Bool.true_eq_false, if_false]
          rw [hbody]
          obtain ⟨t2, g1, g2⟩ := hupd t1 q2
          obtain ⟨k1, k2, k3, k4, k5⟩ := hnext t1 t2 q2 g2
          simp only [g1]
          obtain ⟨t3, R, os, r1, r2, r3, r4, r4', r5⟩ := ih (ht0.statics k1)
            (k5 false rs (by simp [hB]) (fun h => by cases h)) k4
          rw [r1]
          refine ⟨t3, Interval.mk' rs scan :: R, o :: os, rfl,
            k1.statics r2, .cons q3 r3, ?_, ?_, fun x => ?_⟩
          · simp only [Bool.false_eq_true, if_false] at r4
            simp only [if_true]
            exact ⟨by show rs - 1 < rs; omega, hrs, r4.mono (by show scan ≤ _; omega)⟩
          · intro i hi
            rcases List.mem_cons.1 hi with rfl | hi
            · exact ⟨rfl, rfl⟩
            · exact r4' i hi
          · rw [memList_cons, r5, TreeMem.static k1]
            simp only [Bool.false_eq_true, false_and, false_or, true_and, Interval.mem_def, Interval.mk']
            constructor
            · rintro (h | ⟨h1, h2⟩)
              · exact Or.inl h
              · exact Or.inr ⟨by omega, h2⟩
            · rintro (h | ⟨h1, h2⟩)
              · exact Or.inl h
              · refine Or.inr ⟨?_, h2⟩
                by_contra hc
                exact hB ((k3 x h1 (by omega)).1 h2)

end Samurai
