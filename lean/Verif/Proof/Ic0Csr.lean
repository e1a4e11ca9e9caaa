import Verif.Model.Ic0Csr
import Verif.Proof.LevelRun

/-! # Incomplete Cholesky kernels for rows -/

namespace Verif.Ic0r
open Res Exec

variable {V : Type} {a : Mat V}

/-- Well-formed, sorted and non-empty rows. -/
structure Rows (g : Csc) : Prop where
  wf : g.WF
  sorted : g.Sorted
  ne : ∀ c, c < g.n → g.ptr c < g.ptr (c + 1)

theorem Rows.idx_lt {g : Csc} (h : Rows g) {c q : Nat} (hc : c < g.n) (h1 : g.ptr c ≤ q) (h3 : q + 1 < g.ptr (c + 1)) :
    g.idx q < g.idx (q + 1) := by
  have get : ∀ q, g.ptr c ≤ q → q < g.ptr (c + 1) → (g.col c)[q - g.ptr c]? = some (g.idx q) := by
    intro q h1 h2
    have hl := h.wf.ptr_le (a := c + 1) (by omega)
    rw [Csc.col, List.getElem?_take, if_pos (by omega), List.getElem?_drop]
    rw [show g.ptr c + (q - g.ptr c) = q by omega, Csc.idx, List.getD_eq_getElem?_getD]
    rw [List.getElem?_eq_getElem (by omega)]
    rfl
  have a1 := get q h1 (by omega)
  have a2 := get (q + 1) (by omega) h3
  rw [List.getElem?_eq_some_iff] at a1 a2
  obtain ⟨b1, c1⟩ := a1
  obtain ⟨b2, c2⟩ := a2
  have := List.pairwise_iff_getElem.1 (h.sorted c hc) _ _ b1 b2 (by omega)
  rw [c1, c2] at this
  exact this

theorem forRange_same {σ : Type} {lo hi : Nat} {f : Nat → σ → Res σ} (h : ∀ k s, lo ≤ k → k < hi → f k s = ok s) (s : σ) :
    forRange lo hi f s = ok s := by
  by_cases hle : lo ≤ hi
  · have : wp (forRange lo hi f s) (fun t => t = s) := by
      refine forRange_wp (fun _ t => t = s) hle rfl ?_
      intro k t h1 h2 ht
      subst ht
      rw [h k t h1 h2, wp_ok]
    obtain ⟨t, h1, rfl⟩ := wp_iff.1 this
    exact h1
  · exact forRange_empty _ _ (by omega)

/-- S3 is never executed. -/
theorem scan_eq {σ : Type} {g : Csc} (h : Rows g) {i m k : Nat} (hi : i < g.n) (hm : g.ptr i ≤ m) (hk : k < g.ptr g.n)
    (hit : Nat → σ → Res σ) (s : σ) : scan g.i m (g.ptr (i + 1) - 1) k hit s = ok s := by
  unfold scan
  apply forRange_same
  intro l s h1 h2
  have hn : g.ptr (i + 1) ≤ g.ptr g.n := h.wf.mono_le (by omega) (Nat.le_refl _)
  rw [h.wf.rd_i (by omega), ok_bind, h.wf.rd_i hk, ok_bind]
  by_cases he : g.idx l = g.idx k
  · rw [if_pos he, h.wf.rd_i (by omega), ok_bind, if_neg]
    have := h.idx_lt hi (q := l) (by omega) (by omega)
    omega
  · rw [if_neg he]

theorem lastPos_eq {g : Csc} (h : Rows g) {i : Nat} (hi : i < g.n) : lastPos g.p i = ok (g.ptr (i + 1) - 1) := by
  unfold lastPos
  have := h.ne i hi
  rw [h.wf.rd_p (by omega), ok_bind, if_neg (by omega)]

theorem row_eq {g : Csc} (h : Rows g) (A : IcArith V) (pos : V → Bool) {i : Nat} (hi : i < g.n) (x : List V) :
    row A pos g.p g.i i x = rootOf A pos (g.ptr (i + 1) - 1) x >>=
      forRange (g.ptr i) (g.ptr (i + 1) - 1) (scale A (g.ptr (i + 1) - 1)) := by
  unfold row
  rw [lastPos_eq h hi, ok_bind]
  congr 1
  funext y
  rw [h.wf.rd_p (by omega), ok_bind]
  have key : ∀ z, forRange (g.ptr i) (g.ptr (i + 1) - 1) (fun m x => do
      let j ← rd g.i m
      let b ← rd g.p j
      let e ← rd g.p (j + 1)
      forRange b e (fun k x => scan g.i m (g.ptr (i + 1) - 1) k (subtract A m k) x) x) z = ok z := by
    intro z
    apply forRange_same
    intro m s h1 h2
    have hn : g.ptr (i + 1) ≤ g.ptr g.n := h.wf.mono_le (by omega) (Nat.le_refl _)
    have hj := h.wf.idx_lt hi (j := m) h1 (by omega)
    rw [h.wf.rd_i (by omega), ok_bind, h.wf.rd_p (by omega), ok_bind, h.wf.rd_p (by omega), ok_bind]
    apply forRange_same
    intro k s hk1 hk2
    have : g.ptr (g.idx m + 1) ≤ g.ptr g.n := h.wf.mono_le (by omega) (Nat.le_refl _)
    exact scan_eq h hi h1 (by omega) _ _
  cases forRange (g.ptr i) (g.ptr (i + 1) - 1) (scale A (g.ptr (i + 1) - 1)) y with
  | ok z => rw [ok_bind]; exact key z
  | ub => rfl
  | exn => rfl
  | nofuel => rfl

/-- The instructions for row `i`. -/
def rowI (g : Csc) (i : Nat) : List Ins :=
  [Ins.ld1 (g.ptr (i + 1) - 1), .sqrt (g.ptr (i + 1) - 1)] ++
    (List.range' (g.ptr i) (g.ptr (i + 1) - 1 - g.ptr i)).flatMap
      (fun m => [Ins.ld1 m, .ld2 (g.ptr (i + 1) - 1), .div m])

theorem rowCode_eq {g : Csc} (h : Rows g) {i : Nat} (hi : i < g.n) : rowCode g.p g.i i = ok (rowI g i) := by
  have hne := h.ne i hi
  unfold rowCode
  rw [lastPos_eq h hi, ok_bind, h.wf.rd_p (by omega), ok_bind]
  rw [Ic0.seqCode_eq (c := fun m => [Ins.ld1 m, .ld2 (g.ptr (i + 1) - 1), .div m]) (by omega) (fun _ _ _ => rfl), ok_bind]
  rw [Ic0.seqCode_eq (c := fun _ => ([] : List Ins)) (by omega), ok_bind]
  · simp [rowI]
  · intro m h1 h2
    have hn : g.ptr (i + 1) ≤ g.ptr g.n := h.wf.mono_le (by omega) (Nat.le_refl _)
    have hj := h.wf.idx_lt hi (j := m) h1 (by omega)
    rw [h.wf.rd_i (by omega), ok_bind, h.wf.rd_p (by omega), ok_bind, h.wf.rd_p (by omega), ok_bind]
    have : g.ptr (g.idx m + 1) ≤ g.ptr g.n := h.wf.mono_le (by omega) (Nat.le_refl _)
    rw [Ic0.seqCode_eq (c := fun _ => ([] : List Ins)) (h.wf.mono_le (by omega) (by omega))]
    · simp
    · intro k hk1 hk2
      exact scan_eq h hi h1 (by omega) _ _

theorem runs_root (A : IcArith V) (d : Nat) : Mach.Runs (step A) [.ld1 d, .sqrt d] (rootOf A (fun _ => true) d) := by
  intro r x
  unfold rootOf
  rcases Ic0.rd_cases x d with ⟨v, hv⟩ | hv
  · rcases Ic0.wr_cases x d (A.root v) with ⟨l, hl⟩ | hl <;>
      simp [Mach.runCode, step, hv, hl, Ic0.ub_bind]
  · simp [Mach.runCode, step, hv, Ic0.ub_bind]

theorem runs_scale (A : IcArith V) (d m : Nat) : Mach.Runs (step A) [.ld1 m, .ld2 d, .div m] (scale A d m) := by
  intro r x
  unfold scale
  rcases Ic0.rd_cases x m with ⟨v, hv⟩ | hv
  · rcases Ic0.rd_cases x d with ⟨w, hw⟩ | hw
    · rcases Ic0.wr_cases x m (A.dv v w) with ⟨l, hl⟩ | hl <;>
        simp [Mach.runCode, step, hv, hw, hl, Ic0.ub_bind]
    · simp [Mach.runCode, step, hv, hw, Ic0.ub_bind]
  · simp [Mach.runCode, step, hv, Ic0.ub_bind]

theorem runs_row {g : Csc} (h : Rows g) (A : IcArith V) {i : Nat} (hi : i < g.n) :
    Mach.Runs (step A) (rowI g i) (row A (fun _ => true) g.p g.i i) := by
  intro r x
  rw [row_eq h A _ hi]
  exact (runs_root A _).append (Mach.Runs.range (fun k _ _ => runs_scale A _ k)) r x

/-! ### Independence -/

/-- The location accessed by an instruction. -/
def Ins.addr : Ins → Nat
  | .ld1 a => a
  | .ld2 a => a
  | .ld3 a => a
  | .sqrt a => a
  | .div a => a
  | .sub a => a

/-- Effect on the registers and the accessed location. -/
def eff (A : IcArith V) : Ins → Regs V → V → Option (Regs V × V)
  | .ld1 _, r, v => some (⟨some v, r.r2, r.r3⟩, v)
  | .ld2 _, r, v => some (⟨r.r1, some v, r.r3⟩, v)
  | .ld3 _, r, v => some (⟨r.r1, r.r2, some v⟩, v)
  | .sqrt _, ⟨some u, v, w⟩, _ => some (⟨some u, v, w⟩, A.root u)
  | .div _, ⟨some u, some v, w⟩, _ => some (⟨some u, some v, w⟩, A.dv u v)
  | .sub _, ⟨some u, some v, some w⟩, _ => some (⟨some u, some v, some w⟩, A.upd w u v)
  | _, _, _ => none

/-- Perform the effect. -/
def app (A : IcArith V) (i : Ins) (r : Regs V) (m : List V) : Option (Regs V × List V) :=
  (m[i.addr]?).bind fun v => (eff A i r v).map fun t => (t.1, m.set i.addr t.2)

theorem step_eq (A : IcArith V) (i : Ins) (r : Regs V) (m : List V) :
    step A i r m = Ic0.orUb (app A i r m) := by
  have hrd : ∀ k, (∃ v, m[k]? = some v ∧ rd m k = ok v ∧ ∀ w, wr m k w = ok (m.set k w)) ∨
      (m[k]? = none ∧ rd m k = ub ∧ ∀ w, wr m k w = ub) := by
    intro k
    by_cases hk : k < m.length
    · exact .inl ⟨m[k], List.getElem?_eq_getElem hk, rd_eq hk, fun w => wr_eq hk⟩
    · refine .inr ⟨List.getElem?_eq_none (by omega), ?_, ?_⟩
      · unfold rd
        rw [List.getElem?_eq_none (by omega)]
      · intro w
        unfold wr
        rw [if_neg hk]
  obtain ⟨r1, r2, r3⟩ := r
  cases i with
  | ld1 k =>
    rcases hrd k with ⟨v, h1, h2, h3⟩ | ⟨h1, h2, h3⟩
    · simp [step, app, eff, Ic0.orUb, Ins.addr, h1, h2, Ic0.set_same h1]
    · simp [step, app, Ic0.orUb, Ins.addr, h1, h2, Ic0.ub_bind]
  | ld2 k =>
    rcases hrd k with ⟨v, h1, h2, h3⟩ | ⟨h1, h2, h3⟩
    · simp [step, app, eff, Ic0.orUb, Ins.addr, h1, h2, Ic0.set_same h1]
    · simp [step, app, Ic0.orUb, Ins.addr, h1, h2, Ic0.ub_bind]
  | ld3 k =>
    rcases hrd k with ⟨v, h1, h2, h3⟩ | ⟨h1, h2, h3⟩
    · simp [step, app, eff, Ic0.orUb, Ins.addr, h1, h2, Ic0.set_same h1]
    · simp [step, app, Ic0.orUb, Ins.addr, h1, h2, Ic0.ub_bind]
  | sqrt k =>
    rcases hrd k with ⟨v, h1, h2, h3⟩ | ⟨h1, h2, h3⟩ <;> cases r1 <;>
      simp [step, app, eff, Ic0.orUb, Ins.addr, h1, h3, Ic0.ub_bind]
  | div k =>
    rcases hrd k with ⟨v, h1, h2, h3⟩ | ⟨h1, h2, h3⟩ <;> cases r1 <;> cases r2 <;>
      simp [step, app, eff, Ic0.orUb, Ins.addr, h1, h3, Ic0.ub_bind]
  | sub k =>
    rcases hrd k with ⟨v, h1, h2, h3⟩ | ⟨h1, h2, h3⟩ <;> cases r1 <;> cases r2 <;> cases r3 <;>
      simp [step, app, eff, Ic0.orUb, Ins.addr, h1, h3, Ic0.ub_bind]

theorem indep_of_ne (A : IcArith V) {i j : Ins} (h : i.addr ≠ j.addr) : Mach.Indep (step A) i j := by
  intro r s m
  simp only [step_eq]
  unfold app
  cases h1 : m[i.addr]? with
  | none =>
    cases h2 : m[j.addr]? with
    | none => rfl
    | some w =>
      cases h3 : eff A j s w with
      | none => simp [Ic0.orUb, h3, Ic0.ub_bind]
      | some t => simp [Ic0.orUb, h3, Ic0.ub_bind, List.getElem?_set_ne (Ne.symm h), h1]
  | some v =>
    cases h2 : m[j.addr]? with
    | none =>
      cases h3 : eff A i r v with
      | none => simp [Ic0.orUb, h3, Ic0.ub_bind]
      | some t => simp [Ic0.orUb, h3, Ic0.ub_bind, List.getElem?_set_ne h, h2]
    | some w =>
      cases h3 : eff A i r v with
      | none =>
        cases h4 : eff A j s w with
        | none => simp [Ic0.orUb, h3, h4, Ic0.ub_bind]
        | some t => simp [Ic0.orUb, h3, h4, Ic0.ub_bind, List.getElem?_set_ne (Ne.symm h), h1]
      | some t =>
        cases h4 : eff A j s w with
        | none => simp [Ic0.orUb, h3, h4, Ic0.ub_bind, List.getElem?_set_ne h, h2]
        | some t' =>
          simp [Ic0.orUb, h3, h4, List.getElem?_set_ne h, List.getElem?_set_ne (Ne.symm h), h1, h2,
            List.set_comm _ _ h]

theorem mem_rowI {g : Csc} (h : Rows g) {c : Nat} (hc : c < g.n) {i : Ins} (hi : i ∈ rowI g c) :
    g.ptr c ≤ i.addr ∧ i.addr < g.ptr (c + 1) := by
  have hne := h.ne c hc
  unfold rowI at hi
  rw [List.mem_append] at hi
  rcases hi with hi | hi
  · simp only [List.mem_cons, List.not_mem_nil, or_false] at hi
    rcases hi with rfl | rfl <;> simp only [Ins.addr] <;> omega
  · rw [List.mem_flatMap] at hi
    obtain ⟨m, hm, hi⟩ := hi
    rw [List.mem_range'_1] at hm
    simp only [List.mem_cons, List.not_mem_nil, or_false] at hi
    rcases hi with rfl | rfl | rfl <;> simp only [Ins.addr] <;> omega

theorem addr_ne {g : Csc} (h : Rows g) {c c' : Nat} (hc : c < g.n) (hc' : c' < g.n) (hne : c ≠ c') {i j : Ins}
    (hi : i ∈ rowI g c) (hj : j ∈ rowI g c') : i.addr ≠ j.addr := by
  intro he
  obtain ⟨b1, b2⟩ := mem_rowI h hc hi
  obtain ⟨c1, c2⟩ := mem_rowI h hc' hj
  rcases Nat.lt_or_gt_of_ne hne with h5 | h5
  · have := h.wf.mono_le (a := c + 1) (b := c') (by omega) (by omega); omega
  · have := h.wf.mono_le (a := c' + 1) (b := c) (by omega) (by omega); omega

/-! ### Values -/

/-- The value at position `k` of row `i` after the kernel. -/
def newVal (A : IcArith V) (a : Mat V) (i k : Nat) : Option V :=
  if k + 1 = a.pat.ptr (i + 1) then (a.x[k]?).map A.root
  else (a.x[k]?).bind fun v => (a.x[a.pat.ptr (i + 1) - 1]?).map fun d => A.dv v (A.root d)

/-- The rows of `R` are done. -/
structure Inv (A : IcArith V) (a : Mat V) (R : List Nat) (x : List V) : Prop where
  len : x.length = a.x.length
  inside : ∀ i k, i < a.n → a.pat.ptr i ≤ k → k < a.pat.ptr (i + 1) →
    x[k]? = if i ∈ R then newVal A a i k else a.x[k]?
  outside : ∀ k, a.pat.ptr a.n ≤ k → x[k]? = a.x[k]?

theorem exists_row {g : Csc} (h : Rows g) {q : Nat} (hq : q < g.ptr g.n) :
    ∃ c, c < g.n ∧ g.ptr c ≤ q ∧ q < g.ptr (c + 1) := by
  have key : ∀ k, k ≤ g.n → q < g.ptr k → ∃ c, c < g.n ∧ g.ptr c ≤ q ∧ q < g.ptr (c + 1) := by
    intro k
    induction k with
    | zero => intro _ h0; rw [h.wf.p0] at h0; omega
    | succ k ih =>
      intro hk hq
      by_cases h5 : q < g.ptr k
      · exact ih (by omega) h5
      · exact ⟨k, by omega, by omega, hq⟩
  exact key _ (Nat.le_refl _) hq

theorem Inv.unique {A : IcArith V} (h : Rows a.pat) {R S : List Nat} (hRS : ∀ i, i < a.n → (i ∈ R ↔ i ∈ S)) {x y : List V}
    (hx : Inv A a R x) (hy : Inv A a S y) : x = y := by
  apply List.ext_getElem?
  intro k
  by_cases hk : k < a.pat.ptr a.n
  · obtain ⟨c, hc, h1, h2⟩ := exists_row h hk
    rw [hx.inside c k hc h1 h2, hy.inside c k hc h1 h2]
    simp only [hRS c hc]
  · rw [hx.outside k (by omega), hy.outside k (by omega)]

theorem scales_wp (A : IcArith V) {lo d : Nat} {x : List V} {w : V} (hle : lo ≤ d) (hw : x[d]? = some w) :
    wp (forRange lo d (scale A d) x) (fun y : List V => y.length = x.length ∧
      ∀ k, y[k]? = if lo ≤ k ∧ k < d then (x[k]?).map (fun v => A.dv v w) else x[k]?) := by
  have hdl : d < x.length := (List.getElem?_eq_some_iff.1 hw).1
  refine forRange_wp (fun m (y : List V) => y.length = x.length ∧
      ∀ k, y[k]? = if lo ≤ k ∧ k < m then (x[k]?).map (fun v => A.dv v w) else x[k]?) hle ?_ ?_
  · refine ⟨rfl, fun k => ?_⟩
    rw [if_neg (by omega)]
  · intro m y h1 h2 ⟨hl, hy⟩
    have e1 : y[m]? = some (x[m]'(by omega)) := by
      rw [hy m, if_neg (by omega), List.getElem?_eq_getElem (by omega)]
    have e2 : y[d]? = some w := by rw [hy d, if_neg (by omega), hw]
    unfold scale
    unfold rd
    rw [e1, e2]
    simp only [ok_bind]
    rw [wr_eq (by omega), wp_ok]
    refine ⟨by simp [hl], fun k => ?_⟩
    rw [List.getElem?_set]
    by_cases hk : m = k
    · subst hk
      rw [if_pos rfl, if_pos (by omega), if_pos (by omega), List.getElem?_eq_getElem (by omega)]
      rfl
    · rw [if_neg hk, hy k]
      by_cases hc : lo ≤ k ∧ k < m
      · rw [if_pos hc, if_pos (by omega)]
      · rw [if_neg hc, if_neg (by omega)]

theorem row_wp {A : IcArith V} {pos : V → Bool} (h : Rows a.pat) (hx : a.pat.ptr a.n ≤ a.x.length) {R : List Nat} {x : List V} (hI : Inv A a R x)
    {i : Nat} (hi : i < a.n) (hR : i ∉ R) (hpos : ∀ v, a.x[a.pat.ptr (i + 1) - 1]? = some v → pos v = true) :
    wp (row A pos a.p a.i i x) (Inv A a (R ++ [i])) := by
  have hne := h.ne i hi
  have hn : a.pat.ptr (i + 1) ≤ a.pat.ptr a.n := h.wf.mono_le (by show i + 1 ≤ a.n; omega) (Nat.le_refl _)
  have hl := hI.len
  obtain ⟨d, hd⟩ : ∃ d, d = a.pat.ptr (i + 1) - 1 := ⟨_, rfl⟩
  have hdv : x[d]? = a.x[d]? := by rw [hI.inside i d hi (by omega) (by omega), if_neg hR]
  have hdv' : a.x[d]? = some (a.x[d]'(by omega)) := List.getElem?_eq_getElem (by omega)
  obtain ⟨v, hv⟩ : ∃ v, a.x[d]? = some v := ⟨_, hdv'⟩
  rw [← hd] at hpos
  show wp (row A pos a.pat.p a.pat.i i x) _
  rw [row_eq h A pos hi, ← hd]
  unfold rootOf rd
  rw [hdv, hv]
  simp only [ok_bind]
  rw [if_pos (hpos v hv), wr_eq (by omega), ok_bind]
  refine wp_mono (scales_wp A (w := A.root v) (by omega) (by rw [List.getElem?_set_self (by omega)])) ?_
  rintro y ⟨y1, y2⟩
  have hget : ∀ k, k ≠ d → (x.set d (A.root v))[k]? = x[k]? := fun k hk => by
    rw [List.getElem?_set_ne (Ne.symm hk)]
  refine ⟨by rw [y1, List.length_set, hl], ?_, ?_⟩
  · intro c k hc h1 h2
    by_cases hci : c = i
    · subst hci
      rw [if_pos (by simp), y2 k]
      unfold newVal
      by_cases hk : k = d
      · rw [if_neg (by omega), if_pos (by omega), hk, List.getElem?_set_self (by omega), hv]
        rfl
      · rw [if_pos (by omega), if_neg (by omega), hget k hk, hI.inside c k hc h1 h2, if_neg hR, ← hd, hv]
        cases a.x[k]? <;> rfl
    · have hkd : ¬ (a.pat.ptr i ≤ k ∧ k < a.pat.ptr (i + 1)) := by
        rcases Nat.lt_or_gt_of_ne hci with h5 | h5
        · have := h.wf.mono_le (a := c + 1) (b := i) (by omega) (by show i ≤ a.n; omega); omega
        · have := h.wf.mono_le (a := i + 1) (b := c) (by omega) (by show c ≤ a.n; omega); omega
      rw [y2 k, if_neg (by omega), hget k (by omega), hI.inside c k hc h1 h2]
      have : c ∈ R ++ [i] ↔ c ∈ R := by simp [hci]
      simp only [this]
  · intro k hk
    rw [y2 k, if_neg (by omega), hget k (by omega), hI.outside k hk]

theorem rows_wp {A : IcArith V} {pos : V → Bool} (h : Rows a.pat) (hx : a.pat.ptr a.n ≤ a.x.length)
    {ord : List Nat} (hnd : ord.Nodup) (hlt : ∀ c ∈ ord, c < a.n)
    (hpos : ∀ i, i < a.n → ∀ v, a.x[a.pat.ptr (i + 1) - 1]? = some v → pos v = true) :
    wp (forEach ord (row A pos a.p a.i) a.x) (Inv A a ord) := by
  refine wp_mono (forEach_wp (fun p x => Inv A a p x) ord [] a.x ?_ ?_) (fun x hx => by simpa using hx)
  · exact ⟨rfl, fun i k _ _ _ => by simp, fun k _ => rfl⟩
  · intro p i q x he hI
    rw [List.nil_append] at he
    refine row_wp h hx hI (hlt i (by rw [he]; simp)) ?_ (hpos i (hlt i (by rw [he]; simp)))
    rw [he, List.nodup_append] at hnd
    intro hm
    exact hnd.2.2 i hm i (by simp) rfl

/-- The code of a list of rows. -/
def codeI (g : Csc) (P : List Nat) : List Ins := P.flatMap (rowI g)

/-- Level loops over complete schedules. -/
theorem levelLoop_rows {A : IcArith V} (h : Rows a.pat) (hx : a.pat.ptr a.n ≤ a.x.length)
    {levels : Nat} {ptr : List Nat} {thread : Nat → Res (List Ins)} {parts : Nat → List (List Nat)}
    (hN : NestedOk a.n (fun _ _ => False) levels parts)
    (hthr : ∀ l, l < levels → ∃ lo hi, rd ptr l = ok lo ∧ rd ptr (l + 1) = ok hi ∧
      Mach.parCodes lo hi thread = ok ((parts l).map (codeI a.pat))) :
    ∃ xs, Inv A a (List.range a.n) xs ∧
      (∀ sch, Mach.levelLoop (step A) ⟨none, none, none⟩ levels ptr thread sch a.x = ok xs ∨
        Mach.levelLoop (step A) ⟨none, none, none⟩ levels ptr thread sch a.x = nofuel) ∧
      ∃ sch, Mach.levelLoop (step A) ⟨none, none, none⟩ levels ptr thread sch a.x = ok xs := by
  have hnd : (nestedRows parts levels).Nodup := hN.perm.nodup_iff.2 List.nodup_range
  have hlev : ∀ l, ∃ x, l ≤ levels → (forEach (nestedRows parts l) (row A (fun _ => true) a.p a.i) a.x = ok x ∧
      Inv A a (nestedRows parts l) x) := by
    intro l
    by_cases hl : l ≤ levels
    · have hpre := nestedRows_mono (parts := parts) hl
      obtain ⟨x, h1, h2⟩ := wp_iff.1 (rows_wp (A := A) (pos := fun _ => true) h hx (hnd.sublist hpre.sublist)
        (fun c hc => List.mem_range.1 (hN.perm.mem_iff.1 (hpre.subset hc))) (fun _ _ _ _ => rfl))
      exact ⟨x, fun _ => ⟨h1, h2⟩⟩
    · exact ⟨a.x, fun h => absurd h hl⟩
  choose st hst using hlev
  have h0 : st 0 = a.x := by
    have := (hst 0 (Nat.zero_le _)).1
    simp [nestedRows, forEach] at this
    exact this.symm
  have hlt : ∀ l, l < levels → ∀ P ∈ parts l, ∀ c ∈ P, c < a.n := by
    intro l hl P hP c hc
    have hpre := nestedRows_mono (parts := parts) (a := l + 1) (b := levels) hl
    rw [nestedRows_succ] at hpre
    have : c ∈ nestedRows parts levels :=
      hpre.subset (List.mem_append_right _ (List.mem_flatten.2 ⟨P, hP, hc⟩))
    exact List.mem_range.1 (hN.perm.mem_iff.1 this)
  have hrun := Mach.levelLoop_run (step := step A) (r0 := ⟨none, none, none⟩) (st := st) hthr
    (by
      intro l hl s t hne c c' h1 h2 i hi j hj
      rw [List.getElem?_map] at h1 h2
      obtain ⟨P, hP, rfl⟩ := Option.map_eq_some_iff.mp h1
      obtain ⟨Q, hQ, rfl⟩ := Option.map_eq_some_iff.mp h2
      unfold codeI at hi hj
      rw [List.mem_flatMap] at hi hj
      obtain ⟨u, hu, hi⟩ := hi
      obtain ⟨v, hv, hj⟩ := hj
      apply indep_of_ne
      refine addr_ne h (hlt l hl P (List.mem_of_getElem? hP) u hu) (hlt l hl Q (List.mem_of_getElem? hQ) v hv) ?_ hi hj
      rintro rfl
      have hpre := nestedRows_mono (parts := parts) (a := l + 1) (b := levels) hl
      rw [nestedRows_succ] at hpre
      have hfl := (List.nodup_append.1 (hnd.sublist hpre.sublist)).2.1
      have hpw := (List.nodup_flatten.1 hfl).2
      rw [List.pairwise_iff_getElem] at hpw
      obtain ⟨e1, e2⟩ := List.getElem?_eq_some_iff.1 hP
      obtain ⟨e3, e4⟩ := List.getElem?_eq_some_iff.1 hQ
      rcases Nat.lt_or_gt_of_ne hne with h5 | h5
      · have hd := hpw s t e1 e3 h5
        rw [e2, e4] at hd
        exact hd hu hv
      · have hd := hpw t s e3 e1 h5
        rw [e2, e4] at hd
        exact hd hv hu)
    (by
      intro l hl
      have e := Mach.seqAll_each (step := step A) (r0 := (⟨none, none, none⟩ : Regs V)) (parts l)
        (c := rowI a.pat) (f := row A (fun _ => true) a.p a.i)
        (fun P hP k hk => runs_row h A (hlt l hl P hP k hk)) (st l)
      have e1 := (hst l (by omega)).1
      have e2 := (hst (l + 1) hl).1
      rw [nestedRows_succ, forEach_append, e1, ok_bind] at e2
      exact e.trans e2)
  rw [h0] at hrun
  refine ⟨st levels, ?_, hrun⟩
  have := (hst levels (Nat.le_refl _)).2
  exact ⟨this.len, fun i k hi h1 h2 => by
    rw [this.inside i k hi h1 h2]
    have : i ∈ nestedRows parts levels ↔ i ∈ List.range a.n := hN.perm.mem_iff
    simp only [this], this.outside⟩

end Verif.Ic0r
