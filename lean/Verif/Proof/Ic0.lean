import Verif.Model.Ic0
import Verif.Proof.Graph
import Verif.Proof.Slices
import Verif.Proof.Commute

/-! # The columns of the incomplete Cholesky kernels -/

namespace Verif.Ic0
open Res

variable {V : Type}

/-- The pattern of a lower triangular matrix as the kernels expect it. -/
structure Tri (g : Csc) : Prop where
  wf : g.WF
  diag : g.DiagFirst
  sorted : g.Sorted

namespace Tri
variable {g : Csc} (h : Tri g)
include h

theorem lt_next {c : Nat} (hc : c < g.n) : g.ptr c < g.ptr (c + 1) := by
  have h1 := h.diag c hc
  have h2 := h.wf.col_length hc
  by_contra h3
  have : (g.col c).length = 0 := by omega
  rw [List.length_eq_zero_iff.mp this] at h1
  simp at h1

theorem getElem_col {c q : Nat} (hc : c < g.n) (h1 : g.ptr c ≤ q) (h2 : q < g.ptr (c + 1)) :
    (g.col c)[q - g.ptr c]? = some (g.idx q) := by
  have hl := h.wf.ptr_le (a := c + 1) (by omega)
  rw [Csc.col, List.getElem?_take, if_pos (by omega), List.getElem?_drop]
  rw [show g.ptr c + (q - g.ptr c) = q by omega, Csc.idx, List.getD_eq_getElem?_getD]
  rw [List.getElem?_eq_getElem (by omega)]
  rfl

theorem idx_diag {c : Nat} (hc : c < g.n) : g.idx (g.ptr c) = c := by
  have h1 := h.getElem_col hc (Nat.le_refl _) (h.lt_next hc)
  have h2 := h.diag c hc
  rw [Nat.sub_self] at h1
  rw [List.head?_eq_getElem?, h1] at h2
  exact Option.some.inj h2

theorem idx_lt_idx {c q q' : Nat} (hc : c < g.n) (h1 : g.ptr c ≤ q) (h2 : q < q') (h3 : q' < g.ptr (c + 1)) :
    g.idx q < g.idx q' := by
  have a1 := h.getElem_col hc h1 (by omega)
  have a2 := h.getElem_col hc (by omega) h3
  have hs := h.sorted c hc
  rw [List.getElem?_eq_some_iff] at a1 a2
  obtain ⟨b1, c1⟩ := a1
  obtain ⟨b2, c2⟩ := a2
  have := List.pairwise_iff_getElem.1 hs _ _ b1 b2 (by omega)
  rw [c1, c2] at this
  exact this

theorem idx_inj {c q q' : Nat} (hc : c < g.n) (h1 : g.ptr c ≤ q) (h2 : q < g.ptr (c + 1))
    (h3 : g.ptr c ≤ q') (h4 : q' < g.ptr (c + 1)) (he : g.idx q = g.idx q') : q = q' := by
  rcases Nat.lt_trichotomy q q' with h5 | h5 | h5
  · have := h.idx_lt_idx hc h1 h5 h4; omega
  · exact h5
  · have := h.idx_lt_idx hc h3 h5 h2; omega

theorem le_idx {c q : Nat} (hc : c < g.n) (h1 : g.ptr c ≤ q) (h2 : q < g.ptr (c + 1)) : c ≤ g.idx q := by
  rcases Nat.eq_or_lt_of_le h1 with h3 | h3
  · rw [← h3, h.idx_diag hc]
  · have := h.idx_lt_idx hc (Nat.le_refl _) h3 h2
    rw [h.idx_diag hc] at this
    omega

theorem dep_lt {u v : Nat} (hd : g.Dep u v) : u < v := by
  obtain ⟨h1, h2, h3⟩ := hd
  obtain ⟨j, a, b, rfl⟩ := (h.wf.mem_col h1).1 h2
  have := h.le_idx h1 a b
  omega

/-- A position of column `c` below the diagonal is a dependence. -/
theorem dep_idx {c q : Nat} (hc : c < g.n) (h1 : g.ptr c < q) (h2 : q < g.ptr (c + 1)) : g.Dep c (g.idx q) := by
  refine ⟨hc, (h.wf.mem_col hc).2 ⟨q, by omega, h2, rfl⟩, ?_⟩
  have := h.idx_lt_idx hc (Nat.le_refl _) h1 h2
  rw [h.idx_diag hc] at this
  omega

theorem lt_total {c q : Nat} (hc : c < g.n) (h2 : q < g.ptr (c + 1)) : q < g.ptr g.n :=
  Nat.lt_of_lt_of_le h2 (h.wf.mono_le (by omega) (Nat.le_refl _))

theorem col_unique {c c' q : Nat} (hc : c < g.n) (hc' : c' < g.n) (h1 : g.ptr c ≤ q) (h2 : q < g.ptr (c + 1))
    (h3 : g.ptr c' ≤ q) (h4 : q < g.ptr (c' + 1)) : c = c' := by
  by_contra hne
  rcases Nat.lt_or_gt_of_ne hne with h5 | h5
  · have := h.wf.mono_le (a := c + 1) (b := c') (by omega) (by omega); omega
  · have := h.wf.mono_le (a := c' + 1) (b := c) (by omega) (by omega); omega

theorem exists_col {q : Nat} (hq : q < g.ptr g.n) : ∃ c, c < g.n ∧ g.ptr c ≤ q ∧ q < g.ptr (c + 1) := by
  have key : ∀ k, k ≤ g.n → q < g.ptr k → ∃ c, c < g.n ∧ g.ptr c ≤ q ∧ q < g.ptr (c + 1) := by
    intro k
    induction k with
    | zero => intro _ h0; rw [h.wf.p0] at h0; omega
    | succ k ih =>
      intro hk hq
      by_cases h5 : q < g.ptr k
      · exact ih (by omega) h5
      · exact ⟨k, by omega, by omega, hq⟩
  exact key _ (Nat.le_refl _) hq

end Tri

/-! ### Entries -/

theorem lookup_iff {l : List (Nat × V)} (h : (l.map Prod.fst).Nodup) (r : Nat) (v : V) :
    l.lookup r = some v ↔ (r, v) ∈ l := by
  induction l with
  | nil => simp
  | cons e l ih =>
    obtain ⟨r', v'⟩ := e
    simp only [List.map_cons, List.nodup_cons] at h
    rw [List.lookup_cons]
    by_cases hr : r = r'
    · subst hr
      simp only [beq_self_eq_true, Option.some.injEq, List.mem_cons, Prod.mk.injEq, true_and]
      constructor
      · intro hv; exact .inl hv.symm
      · rintro (hv | hv)
        · exact hv.symm
        · exact absurd (List.mem_map.2 ⟨(r, v), hv, rfl⟩) h.1
    · have : (r == r') = false := by simpa using hr
      rw [this]
      simp only [List.mem_cons, Prod.mk.injEq]
      rw [ih h.2]
      constructor
      · exact .inr
      · rintro (⟨hr', _⟩ | hv)
        · exact absurd hr' hr
        · exact hv

variable {a : Mat V}

theorem forRange_congr' {σ : Type} {lo hi : Nat} {f f' : Nat → σ → Res σ}
    (h : ∀ k, lo ≤ k → k < hi → ∀ s, f k s = f' k s) (s : σ) : forRange lo hi f s = forRange lo hi f' s := by
  have key : ∀ n lo s, (lo + n ≤ hi ∨ n = 0) → (∀ k, lo ≤ k → k < hi → ∀ s, f k s = f' k s) →
      forN n lo f s = forN n lo f' s := by
    intro n
    induction n with
    | zero => intro lo s _ _; rfl
    | succ n ih =>
      intro lo s hl h
      rw [forN, forN, h lo (by omega) (by omega)]
      congr 1
      funext s'
      exact ih (lo + 1) s' (by omega) (fun k h1 h2 => h k (by omega) h2)
  exact key (hi - lo) lo s (by omega) h

theorem mem_row {x : List V} (hT : Tri a.pat) {c : Nat} (hc : c < a.n) (r : Nat) (v : V) :
    (r, v) ∈ (a.withX x).row c ↔
      ∃ q, a.pat.ptr c ≤ q ∧ q < a.pat.ptr (c + 1) ∧ a.pat.idx q = r ∧ x[q]? = some v := by
  have hl := hT.wf.ptr_le (a := c + 1) (show c + 1 ≤ a.n by omega)
  have hp : ∀ k, (a.withX x).pat.ptr k = a.pat.ptr k := fun _ => rfl
  have hidx : ∀ q r, q < a.pat.ptr (c + 1) → (a.i[q]? = some r ↔ a.pat.idx q = r) := by
    intro q r hq
    have hq' : q < a.i.length := Nat.lt_of_lt_of_le hq hl
    rw [Csc.idx, List.getD_eq_getElem?_getD]
    show _ ↔ (a.i[q]?).getD 0 = r
    rw [List.getElem?_eq_getElem hq']
    simp
  rw [Mat.row, hp, hp, List.mem_iff_getElem?]
  constructor
  · rintro ⟨j, hj⟩
    rw [List.getElem?_take] at hj
    split at hj
    · rw [List.getElem?_drop, List.getElem?_zip_eq_some] at hj
      refine ⟨a.pat.ptr c + j, by omega, by omega, ?_, hj.2⟩
      exact (hidx _ _ (by omega)).1 hj.1
    · cases hj
  · rintro ⟨q, h1, h2, h3, h4⟩
    refine ⟨q - a.pat.ptr c, ?_⟩
    rw [List.getElem?_take, if_pos (by omega), List.getElem?_drop, List.getElem?_zip_eq_some,
      show a.pat.ptr c + (q - a.pat.ptr c) = q by omega]
    exact ⟨(hidx _ _ h2).2 h3, h4⟩

theorem row_keys {x : List V} (hT : Tri a.pat) (hx : a.pat.ptr a.n ≤ x.length) {c : Nat} (hc : c < a.n) :
    ((a.withX x).row c).map Prod.fst = a.pat.col c := by
  have hl := hT.wf.ptr_le (a := c + 1) (show c + 1 ≤ a.n by omega)
  have hm := hT.wf.mono_le (a := c + 1) (b := a.n) (by omega) (Nat.le_refl _)
  show (((a.i.zip x).drop (a.pat.ptr c)).take _).map Prod.fst = (a.i.drop (a.pat.ptr c)).take _
  rw [List.map_take, List.map_drop]
  apply List.ext_getElem?
  intro j
  have hp : (a.withX x).pat.ptr (c + 1) - (a.withX x).pat.ptr c = a.pat.ptr (c + 1) - a.pat.ptr c := rfl
  rw [hp, List.getElem?_take, List.getElem?_take]
  split
  · rw [List.getElem?_drop, List.getElem?_drop, List.getElem?_map]
    have hl' : a.pat.ptr (c + 1) ≤ a.i.length := hl
    have hj' : a.pat.ptr c + j < a.i.length := by omega
    have hj : a.pat.ptr c + j < (a.i.zip x).length := by rw [List.length_zip]; omega
    rw [List.getElem?_eq_getElem hj, List.getElem?_eq_getElem hj']
    simp
  · rfl

theorem ent_iff {x : List V} (hT : Tri a.pat) (hx : a.pat.ptr a.n ≤ x.length) {c : Nat} (hc : c < a.n)
    (r : Nat) (v : V) : (a.withX x).ent c r = some v ↔
      ∃ q, a.pat.ptr c ≤ q ∧ q < a.pat.ptr (c + 1) ∧ a.pat.idx q = r ∧ x[q]? = some v := by
  rw [Mat.ent, lookup_iff, mem_row hT hc]
  rw [row_keys hT hx hc]
  exact (hT.sorted c hc).imp (fun h => Nat.ne_of_lt h)

theorem ent_pos {x : List V} (hT : Tri a.pat) (hx : a.pat.ptr a.n ≤ x.length) {c q : Nat} (hc : c < a.n)
    (h1 : a.pat.ptr c ≤ q) (h2 : q < a.pat.ptr (c + 1)) : (a.withX x).ent c (a.pat.idx q) = x[q]? := by
  have hq : q < x.length := Nat.lt_of_lt_of_le (hT.lt_total hc h2) hx
  rw [List.getElem?_eq_getElem hq]
  exact (ent_iff hT hx hc _ _).2 ⟨q, h1, h2, rfl, List.getElem?_eq_getElem hq⟩

theorem ent_diag {x : List V} (hT : Tri a.pat) (hx : a.pat.ptr a.n ≤ x.length) {c : Nat} (hc : c < a.n) :
    (a.withX x).ent c c = x[a.pat.ptr c]? := by
  have := ent_pos hT hx hc (Nat.le_refl _) (hT.lt_next hc)
  rwa [hT.idx_diag hc] at this

theorem ent_none {x : List V} (hT : Tri a.pat) (hx : a.pat.ptr a.n ≤ x.length) {c r : Nat} (hc : c < a.n)
    (hr : r ∉ a.pat.col c) : (a.withX x).ent c r = none := by
  cases he : (a.withX x).ent c r with
  | none => rfl
  | some v =>
    obtain ⟨q, h1, h2, h3, _⟩ := (ent_iff hT hx hc r v).1 he
    exact absurd ((hT.wf.mem_col hc).2 ⟨q, h1, h2, h3⟩) hr

/-- The entries of a column only depend on its values. -/
theorem ent_congr {x y : List V} (hT : Tri a.pat) (hx : a.pat.ptr a.n ≤ x.length) (hy : a.pat.ptr a.n ≤ y.length)
    {c : Nat} (hc : c < a.n) (h : ∀ q, a.pat.ptr c ≤ q → q < a.pat.ptr (c + 1) → x[q]? = y[q]?) (r : Nat) :
    (a.withX x).ent c r = (a.withX y).ent c r := by
  by_cases hr : r ∈ a.pat.col c
  · obtain ⟨q, h1, h2, rfl⟩ := (hT.wf.mem_col hc).1 hr
    rw [ent_pos hT hx hc h1 h2, ent_pos hT hy hc h1 h2, h q h1 h2]
  · rw [ent_none hT hx hc hr, ent_none hT hy hc hr]

/-! ### The inner loop -/

/-- The position of the row of `k` among `m..e-1`. -/
def found (g : Csc) (m e k : Nat) : Option Nat := (List.range' m (e - m)).find? (fun l => g.idx l = g.idx k)

theorem found_some {g : Csc} {m e k l : Nat} (h : found g m e k = some l) :
    m ≤ l ∧ l < e ∧ g.idx l = g.idx k := by
  have h1 := List.find?_some h
  have h2 := List.mem_of_find?_eq_some h
  rw [List.mem_range'_1] at h2
  exact ⟨h2.1, by omega, by simpa using h1⟩

theorem found_none {g : Csc} {m e k : Nat} (h : found g m e k = none) :
    ∀ l, m ≤ l → l < e → g.idx l ≠ g.idx k := by
  intro l h1 h2 h3
  have := List.find?_eq_none.1 h l (by rw [List.mem_range'_1]; omega)
  simp [h3] at this

/-- Do `hit` for the position, if there is one. -/
def onHit {σ : Type} (o : Option Nat) (hit : Nat → σ → Res σ) (s : σ) : Res σ :=
  match o with
  | some l => hit l s
  | none => ok s

theorem scanRows_eq {σ : Type} {g : Csc} (hT : Tri g) (stop : Bool) {i m e k : Nat} (hi : i < g.n)
    (hm : g.ptr i ≤ m) (hme : m ≤ e) (he : e = g.ptr (i + 1)) (hk : k < g.ptr g.n) (hit : Nat → σ → Res σ) (s : σ) :
    scanRows g.i stop m e k hit s = onHit (found g m e k) hit s := by
  have hn : g.ptr (i + 1) ≤ g.ptr g.n := hT.wf.mono_le (by omega) (Nat.le_refl _)
  unfold scanRows forRangeB
  obtain ⟨F, hF⟩ : ∃ F : Nat → σ → Res (Ctl σ σ), F = (fun l s => do
        let rl ← rd g.i l
        let rk ← rd g.i k
        if rl = rk then do
          let s ← hit l s
          ok (Ctl.next s)
        else if stop && decide (rk < rl) then ok (Ctl.brk s)
        else ok (Ctl.next s)) := ⟨_, rfl⟩
  have hFm : ∀ m s, m < g.ptr g.n → F m s = if g.idx m = g.idx k then hit m s >>= fun s => ok (Ctl.next s)
      else if stop && decide (g.idx k < g.idx m) then ok (Ctl.brk s) else ok (Ctl.next s) := by
    intro m s hm
    rw [hF]
    show (do let rl ← rd g.i m; _) = _
    rw [hT.wf.rd_i hm, hT.wf.rd_i hk]
    rfl
  rw [← hF]
  have key : ∀ c m s, m + c = e → g.ptr i ≤ m → (forNB c m F s >>= finish) = onHit (found g m e k) hit s := by
    intro c
    induction c with
    | zero =>
      intro m s hc _
      have : found g m e k = none := by
        rw [found, show e - m = 0 by omega]; rfl
      rw [this]
      rfl
    | succ c ih =>
      intro m s hc hm
      have hml : m < g.ptr g.n := by omega
      rw [forNB, hFm m s hml]
      have hf : found g m e k = if g.idx m = g.idx k then some m else found g (m + 1) e k := by
        rw [found, show e - m = c + 1 by omega, List.range'_succ, List.find?_cons]
        split
        · rename_i h; rw [if_pos (by simpa using h)]
        · rename_i h; rw [if_neg (by simpa using h), found, show e - (m + 1) = c by omega]
      by_cases heq : g.idx m = g.idx k
      · rw [if_pos heq, hf, if_pos heq]
        have hno : found g (m + 1) e k = none := by
          cases hq : found g (m + 1) e k with
          | none => rfl
          | some l =>
            obtain ⟨h1, h2, h3⟩ := found_some hq
            have := hT.idx_lt_idx hi hm (show m < l by omega) (by omega)
            omega
        show _ = hit m s
        cases hq : hit m s with
        | ok s' =>
          have := ih (m + 1) s' (by omega) (by omega)
          rw [hno] at this
          simp only [ok_bind]
          exact this
        | ub => rfl
        | exn => rfl
        | nofuel => rfl
      · rw [if_neg heq, hf, if_neg heq]
        by_cases hlt : (stop && decide (g.idx k < g.idx m)) = true
        · rw [if_pos hlt]
          have hlt' : g.idx k < g.idx m := by
            simp only [Bool.and_eq_true, decide_eq_true_eq] at hlt
            exact hlt.2
          have hno : found g (m + 1) e k = none := by
            cases hq : found g (m + 1) e k with
            | none => rfl
            | some l =>
              obtain ⟨h1, h2, h3⟩ := found_some hq
              have := hT.idx_lt_idx hi hm (show m < l by omega) (by omega)
              omega
          rw [hno]
          rfl
        · rw [if_neg hlt]
          simp only [ok_bind]
          exact ih (m + 1) s (by omega) (by omega)
  exact key (e - m) m s (by omega) hm

/-! ### Codes and their effect -/

/-- The code changes the memory like `f`, whatever the registers are. -/
def Runs (A : IcArith V) (c : List Ins) (f : List V → Res (List V)) : Prop :=
  ∀ r m, (Mach.runCode (step A) c r m >>= fun x => ok x.2) = f m

theorem Runs.nil (A : IcArith V) : Runs A [] ok := fun _ _ => rfl

theorem runCode_append {I R M : Type} (st : I → R → M → Res (R × M)) (c c' : List I) :
    ∀ r m, Mach.runCode st (c ++ c') r m = Mach.runCode st c r m >>= fun x => Mach.runCode st c' x.1 x.2 := by
  induction c with
  | nil => intro r m; rfl
  | cons i c ih =>
    intro r m
    rw [List.cons_append, Mach.runCode, Mach.runCode, Mach.bind_assoc']
    simp only [ih]

theorem Runs.append {A : IcArith V} {c c' : List Ins} {f f' : List V → Res (List V)} (h : Runs A c f)
    (h' : Runs A c' f') : Runs A (c ++ c') (fun m => f m >>= f') := by
  intro r m
  show _ = f m >>= f'
  rw [runCode_append, Mach.bind_assoc', ← h r m, Mach.bind_assoc']
  simp only [ok_bind]
  congr 1
  funext x
  exact h' x.1 x.2

theorem Runs.range {A : IcArith V} {c : Nat → List Ins} {f : Nat → List V → Res (List V)} {lo hi : Nat}
    (h : ∀ k, lo ≤ k → k < hi → Runs A (c k) (f k)) :
    Runs A ((List.range' lo (hi - lo)).flatMap c) (forRange lo hi f) := by
  have key : ∀ n lo, lo + n ≤ hi ∨ n = 0 → (∀ k, lo ≤ k → k < hi → Runs A (c k) (f k)) →
      Runs A ((List.range' lo n).flatMap c) (forN n lo f) := by
    intro n
    induction n with
    | zero => intro lo _ _; exact Runs.nil A
    | succ n ih =>
      intro lo hl h
      rw [List.range'_succ, List.flatMap_cons]
      have h1 := (h lo (by omega) (by omega)).append (ih (lo + 1) (by omega) (fun k h1 h2 => h k (by omega) h2))
      exact h1
  exact key (hi - lo) lo (by omega) h

theorem Runs.each {A : IcArith V} {c : Nat → List Ins} {f : Nat → List V → Res (List V)} {l : List Nat}
    (h : ∀ k ∈ l, Runs A (c k) (f k)) : Runs A (l.flatMap c) (forEach l f) := by
  induction l with
  | nil => exact Runs.nil A
  | cons k l ih =>
    rw [List.flatMap_cons]
    exact (h k (by simp)).append (ih fun k hk => h k (by simp [hk]))

theorem rd_cases (l : List V) (k : Nat) : (∃ v, rd l k = ok v) ∨ rd l k = ub := by
  unfold rd
  cases l[k]? with
  | none => exact .inr rfl
  | some v => exact .inl ⟨v, rfl⟩

theorem wr_cases (l : List V) (k : Nat) (v : V) : (∃ l', wr l k v = ok l') ∨ wr l k v = ub := by
  unfold wr
  split
  · exact .inl ⟨_, rfl⟩
  · exact .inr rfl

theorem ub_bind {α β : Type} (f : α → Res β) : ((ub : Res α) >>= f) = ub := rfl

theorem runs_pivot (A : IcArith V) (d : Nat) : Runs A [.ld1 d, .ld2 d, .root d] (pivot A d) := by
  intro r m
  unfold pivot
  rcases rd_cases m d with ⟨v, hv⟩ | hv
  · rcases wr_cases m d (A.dv v (A.root v)) with ⟨l, hl⟩ | hl <;>
      simp [Mach.runCode, step, hv, hl, ub_bind]
  · simp [Mach.runCode, step, hv, ub_bind]

theorem runs_scale (A : IcArith V) (d m : Nat) : Runs A [.ld1 m, .ld2 d, .div m] (scale A d m) := by
  intro r x
  unfold scale
  rcases rd_cases x m with ⟨v, hv⟩ | hv
  · rcases rd_cases x d with ⟨w, hw⟩ | hw
    · rcases wr_cases x m (A.dv v w) with ⟨l, hl⟩ | hl <;>
        simp [Mach.runCode, step, hv, hw, hl, ub_bind]
    · simp [Mach.runCode, step, hv, hw, ub_bind]
  · simp [Mach.runCode, step, hv, ub_bind]

theorem runs_subtract (A : IcArith V) (m k l : Nat) : Runs A [.ld1 m, .ld2 l, .atom k] (subtract A m k l) := by
  intro r x
  unfold subtract
  rcases rd_cases x m with ⟨v, hv⟩ | hv
  · rcases rd_cases x l with ⟨w, hw⟩ | hw
    · rcases rd_cases x k with ⟨u, hu⟩ | hu
      · rcases wr_cases x k (A.upd u v w) with ⟨l, hl⟩ | hl <;>
          simp [Mach.runCode, step, hv, hw, hu, hl, ub_bind]
      · simp [Mach.runCode, step, hv, hw, hu, ub_bind]
    · simp [Mach.runCode, step, hv, hw, ub_bind]
  · simp [Mach.runCode, step, hv, ub_bind]

/-- The instructions for one target position. -/
def hitCode (g : Csc) (m e k : Nat) : List Ins :=
  match found g m e k with
  | some l => [.ld1 m, .ld2 l, .atom k]
  | none => []

/-- The instructions of column `i`. -/
def colI (g : Csc) (i : Nat) : List Ins :=
  [Ins.ld1 (g.ptr i), .ld2 (g.ptr i), .root (g.ptr i)] ++
    (List.range' (g.ptr i + 1) (g.ptr (i + 1) - (g.ptr i + 1))).flatMap
      (fun m => [Ins.ld1 m, .ld2 (g.ptr i), .div m]) ++
    (List.range' (g.ptr i + 1) (g.ptr (i + 1) - (g.ptr i + 1))).flatMap (fun m =>
      (List.range' (g.ptr (g.idx m)) (g.ptr (g.idx m + 1) - g.ptr (g.idx m))).flatMap
        (fun k => hitCode g m (g.ptr (i + 1)) k))

theorem seqCode_eq {I : Type} {lo hi : Nat} {f : Nat → Res (List I)} {c : Nat → List I}
    (hle : lo ≤ hi) (hf : ∀ k, lo ≤ k → k < hi → f k = ok (c k)) :
    Mach.seqCode lo hi f = ok ((List.range' lo (hi - lo)).flatMap c) := by
  unfold Mach.seqCode
  rw [forRange_append c hle]
  · simp
  · intro k acc h1 h2
    rw [hf k h1 h2]; rfl

theorem parCodes_eq {I : Type} {lo hi : Nat} {f : Nat → Res (List I)} {c : Nat → List I}
    (hle : lo ≤ hi) (hf : ∀ k, lo ≤ k → k < hi → f k = ok (c k)) :
    Mach.parCodes lo hi f = ok ((List.range' lo (hi - lo)).map c) := by
  unfold Mach.parCodes
  rw [forRange_append (fun k => [c k]) hle]
  · simp [List.map_eq_flatMap]
  · intro k acc h1 h2
    rw [hf k h1 h2]; rfl

theorem colCode_eq {g : Csc} (hT : Tri g) (stop : Bool) {i : Nat} (hi : i < g.n) :
    colCode stop g.p g.i i = ok (colI g i) := by
  have hlt := hT.lt_next hi
  have hn : g.ptr (i + 1) ≤ g.ptr g.n := hT.wf.mono_le (by omega) (Nat.le_refl _)
  unfold colCode
  rw [hT.wf.rd_p (by omega)]
  simp only [ok_bind]
  rw [hT.wf.rd_p (show i + 1 ≤ g.n by omega)]
  simp only [ok_bind]
  rw [seqCode_eq (c := fun m => [Ins.ld1 m, .ld2 (g.ptr i), .div m]) hlt (fun _ _ _ => rfl)]
  simp only [ok_bind]
  rw [seqCode_eq (c := fun m => (List.range' (g.ptr (g.idx m)) (g.ptr (g.idx m + 1) - g.ptr (g.idx m))).flatMap
        (fun k => hitCode g m (g.ptr (i + 1)) k)) hlt]
  · rfl
  · intro m h1 h2
    rw [hT.wf.rd_i (by omega)]
    simp only [ok_bind]
    have hj := hT.wf.idx_lt hi (by omega) h2
    rw [hT.wf.rd_p (by omega)]
    simp only [ok_bind]
    rw [hT.wf.rd_p (show g.idx m + 1 ≤ g.n by omega)]
    simp only [ok_bind]
    rw [seqCode_eq (hT.wf.mono _ hj)]
    intro k h3 h4
    rw [scanRows_eq hT stop hi (by omega) (by omega) rfl (hT.lt_total hj h4)]
    unfold onHit hitCode
    cases found g m (g.ptr (i + 1)) k <;> rfl

theorem column_eq {g : Csc} (hT : Tri g) (A : IcArith V) {i : Nat} (hi : i < g.n) (x : List V) :
    column A g.p g.i i x = (do
      let x ← pivot A (g.ptr i) x
      let x ← forRange (g.ptr i + 1) (g.ptr (i + 1)) (scale A (g.ptr i)) x
      forRange (g.ptr i + 1) (g.ptr (i + 1)) (fun m x =>
        forRange (g.ptr (g.idx m)) (g.ptr (g.idx m + 1)) (fun k x =>
          onHit (found g m (g.ptr (i + 1)) k) (subtract A m k) x) x) x) := by
  have hlt := hT.lt_next hi
  have hn : g.ptr (i + 1) ≤ g.ptr g.n := hT.wf.mono_le (by omega) (Nat.le_refl _)
  unfold column
  rw [hT.wf.rd_p (by omega)]
  simp only [ok_bind]
  rw [hT.wf.rd_p (show i + 1 ≤ g.n by omega)]
  simp only [ok_bind]
  congr 1
  funext x
  congr 1
  funext x
  refine forRange_congr' ?_ x
  intro m h1 h2 x
  rw [hT.wf.rd_i (by omega)]
  simp only [ok_bind]
  have hj := hT.wf.idx_lt hi (by omega) h2
  rw [hT.wf.rd_p (by omega)]
  simp only [ok_bind]
  rw [hT.wf.rd_p (show g.idx m + 1 ≤ g.n by omega)]
  simp only [ok_bind]
  refine forRange_congr' ?_ x
  intro k h3 h4 x
  rw [scanRows_eq hT true hi (by omega) (by omega) rfl (hT.lt_total hj h4)]

theorem runs_column {g : Csc} (hT : Tri g) (A : IcArith V) {i : Nat} (hi : i < g.n) :
    Runs A (colI g i) (column A g.p g.i i) := by
  have h1 := (runs_pivot A (g.ptr i)).append
    (Runs.range (lo := g.ptr i + 1) (hi := g.ptr (i + 1)) (fun k _ _ => runs_scale A (g.ptr i) k))
  have h2 := h1.append (Runs.range (lo := g.ptr i + 1) (hi := g.ptr (i + 1)) (A := A)
    (c := fun m => (List.range' (g.ptr (g.idx m)) (g.ptr (g.idx m + 1) - g.ptr (g.idx m))).flatMap
        (fun k => hitCode g m (g.ptr (i + 1)) k))
    (f := fun m x => forRange (g.ptr (g.idx m)) (g.ptr (g.idx m + 1)) (fun k x =>
          onHit (found g m (g.ptr (i + 1)) k) (subtract A m k) x) x)
    (fun m _ _ => Runs.range (fun k _ _ => by
      unfold onHit hitCode
      cases found g m (g.ptr (i + 1)) k with
      | none => exact Runs.nil A
      | some l => exact runs_subtract A m k l)))
  intro r m
  rw [column_eq hT A hi, ← Mach.bind_assoc']
  exact h2 r m

end Verif.Ic0
