import Verif.Model.Harness
import Verif.Proof.SpmpLevels
import Verif.Props.Exec
import Verif.Props.Solve
import Verif.Props.Measure
import Verif.Props.TestUtils
import Verif.Props.P2P
import Verif.Proof.Ungroup

/-!
# C117: measuring and checking the solvers
-/

namespace Verif
open Res Harness TestU Measure Exec

variable {V S T : Type} [Zero V] [One V]

/-- The right-hand side of all runs. -/
def ones (V : Type) [One V] (n : Nat) : List V := List.replicate n 1

/-- Two vectors that `is_equal` takes for different: in some place of the first `n` one is not a number, or they are
further than `eps` apart. -/
def Differ (C : Cmp V) (eps : V) (n : Nat) (c y : List V) : Prop :=
  ∃ i a b, i < n ∧ c[i]? = some a ∧ y[i]? = some b ∧ (C.isnan a = true ∨ C.isnan b = true ∨ C.far eps a b = true)

/-- A sorting function. -/
def Sorts [LE T] (srt : List T → List T) : Prop := ∀ ts, (srt ts).Perm ts ∧ (srt ts).Pairwise (· ≤ ·)

/-- `t` is a median of the times: one of them, more than half of them are not above it and at least half of them not
below. -/
def IsMedian [LinearOrder T] (t : T) (ts : List T) : Prop :=
  t ∈ ts ∧ ts.length < 2 * ts.countP (fun a => decide (a ≤ t)) ∧ ts.length ≤ 2 * ts.countP (fun a => decide (t ≤ a))

namespace Harness

omit [Zero V] [One V] in
theorem fillN_eq {n : Nat} {x : List V} (h : x.length = n) (v : V) : fillN n v x = ok (List.replicate n v) := by
  have h1 : wp (fillN n v x) (fun y => y = List.replicate n v ++ x.drop n) := by
    refine forRange_wp (fun k y => y = List.replicate k v ++ x.drop k) (Nat.zero_le _) (by simp) ?_
    intro k y _ hk hy
    subst hy
    rw [wr_eq (by simp; omega), wp_ok, List.set_append_right _ _ (by simp)]
    rw [List.length_replicate, Nat.sub_self, List.drop_eq_getElem_cons (by omega), List.set_cons_zero,
      List.replicate_succ', List.append_assoc]
    rfl
  obtain ⟨y, h2, h3⟩ := wp_iff.1 h1
  rw [h2, h3, List.drop_of_length_le (by omega), List.append_nil]

omit [Zero V] [One V] in
theorem copyVector_eq {n : Nat} {src dst : List V} (h1 : src.length = n) (h2 : dst.length = n) :
    copyVector 0 n src dst = ok src := by
  have h : wp (copyVector 0 n src dst) (fun y => y = src.take n ++ dst.drop n) := by
    refine forRange_wp (fun k y => y = src.take k ++ dst.drop k) (Nat.zero_le _) (by simp) ?_
    intro k y _ hk hy
    subst hy
    have hk' : k < src.length := by omega
    rw [rd_eq hk', ok_bind, wr_eq (by simp; omega), wp_ok, List.set_append_right _ _ (by simp)]
    rw [List.length_take, Nat.min_eq_left (by omega), Nat.sub_self, List.drop_eq_getElem_cons (by omega),
      List.set_cons_zero, ← List.take_concat_get' _ _ hk', List.append_assoc]
    rfl
  obtain ⟨y, h3, h4⟩ := wp_iff.1 h
  rw [h3, h4, List.take_of_length_le (by omega), List.drop_of_length_le (by omega), List.append_nil]

theorem runs_eq {D : Demo V S T} {s : S} {y : Nat → List V}
    (hy : ∀ k, k < D.numTest → D.fused k s (ones V D.n) = ok (y k) ∧ (y k).length = D.n) {N : Nat} (hN : N ≤ D.numTest) :
    ∃ xin, xin.length = D.n ∧ forRange 0 N (oneRun D s) ⟨List.replicate D.n 0, List.replicate D.n 0, []⟩
      = ok ⟨xin, if N = 0 then List.replicate D.n 0 else y (N - 1), (List.range N).map D.time⟩ := by
  have h : wp (forRange 0 N (oneRun D s) ⟨List.replicate D.n 0, List.replicate D.n 0, []⟩)
      (fun (m : Mem V T) => m.xin.length = D.n ∧ m.x = (if N = 0 then List.replicate D.n 0 else y (N - 1)) ∧
        m.times = (List.range N).map D.time) := by
    refine forRange_wp (fun k (m : Mem V T) => m.xin.length = D.n ∧ m.x = (if k = 0 then List.replicate D.n 0 else y (k - 1)) ∧
        m.times = (List.range k).map D.time) (Nat.zero_le _) ⟨by simp, rfl, rfl⟩ ?_
    intro k m _ hk ⟨h1, h2, h3⟩
    obtain ⟨y1, y2⟩ := hy k (by omega)
    have hx : m.x.length = D.n := by
      rw [h2]; split
      · simp
      · exact (hy (k - 1) (by omega)).2
    unfold oneRun
    rw [fillN_eq h1, ok_bind, fillN_eq hx, ok_bind]
    have y1' : D.fused k s (List.replicate D.n 1) = ok (y k) := y1
    rw [y1', ok_bind, copyVector_eq y2 (by simp), ok_bind, wp_ok]
    refine ⟨y2, by rw [if_neg (by omega), Nat.add_sub_cancel], ?_⟩
    dsimp only
    rw [h3, List.range_succ, List.map_append, List.map_singleton]
  obtain ⟨m, h1, h2, h3, h4⟩ := wp_iff.1 h
  refine ⟨m.xin, h2, ?_⟩
  rw [h1, ← h3, ← h4]

omit [One V] in
theorem testing_eq {C : Cmp V} {eps : V} {D : Demo V S T} {y : List V} (hy : y.length = D.n)
    (hc : ∀ c, D.correct = some c → c.length = D.n) :
    ∃ a, testing C eps D y = ok a ∧ (a = true ↔ ∃ c, D.correct = some c ∧ Differ C eps D.n c y) := by
  unfold testing
  cases hD : D.correct with
  | none => exact ⟨false, rfl, by simp⟩
  | some c =>
    obtain ⟨b, h1, h2⟩ := C91_equal_range C (lo := 0) (hi := D.n) (v := c) (w := y) (by rw [hc c hD]) (by rw [hy]) eps
    dsimp only
    rw [h1, ok_bind]
    refine ⟨!b, rfl, ?_⟩
    have hiff : b = true ↔ ¬ Differ C eps D.n c y := by
      rw [h2]
      constructor
      · rintro h ⟨i, a, b', hi, ha, hb, hor⟩
        obtain ⟨e1, e2, e3⟩ := h i (Nat.zero_le _) hi a b' ha hb
        rw [e1, e2, e3] at hor
        simp at hor
      · intro h i _ hi a b' ha hb
        refine ⟨?_, ?_, ?_⟩ <;> rw [← Bool.not_eq_true] <;> intro hh
        · exact h ⟨i, a, b', hi, ha, hb, .inl hh⟩
        · exact h ⟨i, a, b', hi, ha, hb, .inr (.inl hh)⟩
        · exact h ⟨i, a, b', hi, ha, hb, .inr (.inr hh)⟩
    constructor
    · intro hb
      refine ⟨c, rfl, ?_⟩
      by_contra hn
      rw [hiff.2 hn] at hb
      exact Bool.noConfusion hb
    · rintro ⟨c', hc', hd⟩
      cases hc'
      cases b with
      | false => rfl
      | true => exact absurd hd (hiff.1 rfl)

end Harness

/-- **C117.** `evaluate`, for every derived class: if the runs end, each of them has started with the right-hand side
of ones, whatever the runs before have left; the solution is that of the last run, the message is printed exactly if it
differs from the reference, and the time is a median of the times of all runs. -/
theorem C117_evaluate [LinearOrder T] (C : Cmp V) (eps : V) {srt : List T → List T} (hs : Sorts srt) (minusOne : T)
    {D : Demo V S T} {s : S} (hb : D.build = ok s) (hN : 0 < D.numTest) {y : Nat → List V}
    (hy : ∀ k, k < D.numTest → D.fused k s (ones V D.n) = ok (y k) ∧ (y k).length = D.n)
    (hc : ∀ c, D.correct = some c → c.length = D.n) :
    ∃ o, evaluate C eps srt minusOne D = ok o ∧ o.solution = y (D.numTest - 1) ∧
      (o.alarm = true ↔ ∃ c, D.correct = some c ∧ Differ C eps D.n c (y (D.numTest - 1))) ∧
      IsMedian o.time ((List.range D.numTest).map D.time) := by
  obtain ⟨xin, _, h2⟩ := runs_eq hy (Nat.le_refl _)
  rw [if_neg (by omega)] at h2
  obtain ⟨a, h3, h4⟩ := testing_eq (C := C) (eps := eps) (hy (D.numTest - 1) (by omega)).2 hc
  obtain ⟨t, h5, h6⟩ := C93_time_median (hs ((List.range D.numTest).map D.time)).1
    (hs ((List.range D.numTest).map D.time)).2 minusOne (by
      intro h; rw [List.map_eq_nil_iff, List.range_eq_nil] at h; omega)
  refine ⟨⟨y (D.numTest - 1), a, t⟩, ?_, rfl, h4, h6⟩
  unfold evaluate
  rw [hb, ok_bind, h2, ok_bind]
  dsimp only
  rw [h3, ok_bind, h5, ok_bind]

/-- **C117** (finding): after `set_num_test(0)` nothing is solved: the solution is zero, the time is -1 and the
message depends on whether the reference is zero. -/
theorem C117_no_tests [LinearOrder T] (C : Cmp V) (eps : V) (srt : List T → List T) (minusOne : T) {D : Demo V S T}
    {s : S} (hb : D.build = ok s) (hN : D.numTest = 0) (hc : ∀ c, D.correct = some c → c.length = D.n) :
    ∃ o, evaluate C eps srt minusOne D = ok o ∧ o.solution = List.replicate D.n 0 ∧ o.time = minusOne ∧
      (o.alarm = true ↔ ∃ c, D.correct = some c ∧ Differ C eps D.n c (List.replicate D.n 0)) := by
  obtain ⟨a, h3, h4⟩ := testing_eq (C := C) (eps := eps) (y := List.replicate D.n 0) (by simp) hc
  refine ⟨⟨List.replicate D.n 0, a, minusOne⟩, ?_, rfl, rfl, h4⟩
  unfold evaluate
  rw [hb, ok_bind, hN, forRange_empty _ _ (Nat.le_refl _), ok_bind]
  dsimp only
  rw [h3, ok_bind]
  rfl

/-- **C117** (finding): only the last run is checked: for every vector there is an object whose other runs all give
this vector, and there is no message. -/
theorem C117_only_last_checked [LinearOrder T] (C : Cmp V) (eps : V) {srt : List T → List T} (hs : Sorts srt)
    (minusOne : T) (t : T) {n : Nat} {c wrong : List V} (hc : c.length = n) (hw : wrong.length = n) (hself : ¬ Differ C eps n c c) :
    ∃ D : Demo V Unit T, D.n = n ∧ D.numTest = 5 ∧ D.correct = some c ∧
      (∀ k, k < 4 → D.fused k () (ones V n) = ok wrong) ∧
      ∃ o, evaluate C eps srt minusOne D = ok o ∧ o.alarm = false := by
  refine ⟨⟨n, 5, some c, ok (), fun k _ _ => ok (if k < 4 then wrong else c), fun _ => t⟩, rfl, rfl, rfl,
    fun k hk => by dsimp only; rw [if_pos hk], ?_⟩
  obtain ⟨o, h1, _, h3, _⟩ := C117_evaluate C eps hs minusOne (D := ⟨n, 5, some c, ok (),
    fun k _ _ => ok (if k < 4 then wrong else c), fun _ => t⟩) (s := ()) rfl (Nat.succ_pos 4)
    (y := fun k => if k < 4 then wrong else c) (fun k _ => ⟨rfl, by dsimp only; split <;> assumption⟩)
    (fun c' hc' => by cases hc'; exact hc)
  refine ⟨o, h1, ?_⟩
  rw [← Bool.not_eq_true]
  intro ha
  obtain ⟨c', hc', hd⟩ := h3.1 ha
  cases hc'
  exact hself hd

/-- **C117.** The serial class always ends, and gives what `sptrsv_csr` gives for the right-hand side of ones; without
reference (as in the benchmark) there is no message. -/
theorem C117_serial [LinearOrder T] (A : Arith V) (C : Cmp V) (eps : V) {srt : List T → List T} (hs : Sorts srt)
    (minusOne : T) {m : Mat V} (hm : m.LowerCsr) {numTest : Nat} (hN : 0 < numTest) (time : Nat → T) :
    ∃ xs o, sptrsvCsr A m.n m.p m.i m.x (ones V m.n) = ok xs ∧ xs.length = m.n ∧
      evaluate C eps srt minusOne (serial A m numTest none time) = ok o ∧ o.solution = xs ∧ o.alarm = false := by
  obtain ⟨xs, hS⟩ := exists_solution (A := A) hm (b := ones V m.n) (by simp [ones])
  have h1 := sptrsvCsr_spec hm (by simp [ones]) hS
  obtain ⟨o, h2, h3, h4, _⟩ := C117_evaluate C eps hs minusOne (D := serial A m numTest none time) (s := ()) rfl hN
    (y := fun _ => xs) (fun k _ => ⟨h1, hS.1⟩) (fun c hc => by cases hc)
  refine ⟨xs, o, h1, hS.1, h2, h3, ?_⟩
  rw [← Bool.not_eq_true]
  intro ha
  obtain ⟨c, hc, _⟩ := h4.1 ha
  cases hc

/-- In exact arithmetic that is the solution of the system with the right-hand side of ones. -/
theorem C117_serial_exact {K : Type} [Field K] [LinearOrder T] (C : Cmp K) (eps : K) {srt : List T → List T}
    (hs : Sorts srt) (minusOne : T) {m : Mat K} (hm : m.LowerCsr)
    (hd : ∀ r d, r < m.n → (m.row r).getLast? = some (r, d) → d ≠ 0) {numTest : Nat} (hN : 0 < numTest)
    (time : Nat → T) :
    ∃ o, evaluate C eps srt minusOne (serial (fieldArith K) m numTest none time) = ok o ∧
      ∀ r, r < m.n → m.mulRow o.solution r = 1 := by
  obtain ⟨xs, o, h1, _, h3, h4, _⟩ := C117_serial (fieldArith K) C eps hs minusOne hm hN time
  obtain ⟨xs', e1, _, e3, _⟩ := C08_serial_solve_correct hm hd (b := ones K m.n) (by simp [ones])
  rw [h1] at e1
  cases e1
  refine ⟨o, h3, fun r hr => ?_⟩
  rw [h4, e3 r hr]
  unfold ones
  rw [getD_replicate _ _ _ _ hr]

/-- The comparison takes a number for equal to itself. -/
def SelfEqual (C : Cmp V) (eps : V) : Prop := ∀ a, C.isnan a = false → C.far eps a a = false

/-- What the user should see for a parallel class that is checked against the serial solution `xs`: the same solution
bit for bit, a message exactly if the solution has an element that is not a number, a median of the times. -/
def Agrees [LinearOrder T] (C : Cmp V) (N : Nat) (time : Nat → T) (xs : List V) (o : Outcome V T) : Prop :=
  o.solution = xs ∧ (o.alarm = true ↔ ∃ a ∈ xs, C.isnan a = true) ∧ IsMedian o.time ((List.range N).map time)

/-- **C117.** A class whose kernel always gives the serial result (C05, C06, C16, C49, C54, C73, C114 …) agrees with
the serial class: whatever interleavings occur in the runs, if all runs end the solution is the same and the only
possible cause of a message are elements that are not numbers. -/
theorem C117_agrees [LinearOrder T] {C : Cmp V} {eps : V} (hC : SelfEqual C eps) {srt : List T → List T}
    (hs : Sorts srt) (minusOne : T) {xs : List V} {D : Demo V S T} (hx : xs.length = D.n) (hcor : D.correct = some xs)
    {s : S} (hb : D.build = ok s) (hN : 0 < D.numTest)
    (hf : ∀ k, k < D.numTest → D.fused k s (ones V D.n) = ok xs) :
    ∃ o, evaluate C eps srt minusOne D = ok o ∧ Agrees C D.numTest D.time xs o := by
  obtain ⟨o, h1, h2, h3, h4⟩ := C117_evaluate C eps hs minusOne hb hN (y := fun _ => xs) (fun k hk => ⟨hf k hk, hx⟩)
    (fun c hc => by rw [hcor] at hc; cases hc; exact hx)
  refine ⟨o, h1, h2, h3.trans ?_, h4⟩
  constructor
  · rintro ⟨c, hc, i, a, b, hi, ha, hb', hor⟩
    rw [hcor] at hc
    cases hc
    rw [ha] at hb'
    cases hb'
    refine ⟨a, List.mem_of_getElem? ha, ?_⟩
    rcases hor with h | h | h
    · exact h
    · exact h
    · by_contra hn
      rw [Bool.not_eq_true] at hn
      rw [hC a hn] at h
      exact Bool.noConfusion h
  · rintro ⟨a, ha, hna⟩
    obtain ⟨i, hi, rfl⟩ := List.getElem_of_mem ha
    exact ⟨xs, hcor, i, _, _, by omega, List.getElem?_eq_getElem hi, List.getElem?_eq_getElem hi, .inl hna⟩

/-- **C117.** `SpTrsv_LL_Wavefront` against the serial class.  If `build_levelSet_CSC` reports success, the two agree in
every execution that ends, and there is one. -/
theorem C117_wavefront [LinearOrder T] (A : Arith V) {C : Cmp V} {eps : V} (hC : SelfEqual C eps)
    {srt : List T → List T} (hs : Sorts srt) (minusOne : T) {m : Mat V} (hm : m.LowerCsr) {g : Csc} (hwf : g.WF)
    (hdiag : g.OneDiag) (hsame : Mat.SameDeps g m) {N : Nat} (hN : 0 < N) (time : Nat → T) :
    ∃ xs o, sptrsvCsr A m.n m.p m.i m.x (ones V m.n) = ok xs ∧ LevelSet.buildLevelSet g.n g.p g.i = ok o ∧
      (0 ≤ o.ret →
        (∀ sch, (∀ k, k < N → sptrsvLevelset A m.p m.i m.x o.ret.toNat o.levelPtr o.levelSet (sch k) (ones V m.n)
            ≠ nofuel) →
          ∃ r, evaluate C eps srt minusOne (wavefront A m g.p g.i N (some xs) sch time) = ok r ∧
            Agrees C N time xs r) ∧
        ∃ sch : Nat → Nat → List Nat, ∀ k, sptrsvLevelset A m.p m.i m.x o.ret.toNat o.levelPtr o.levelSet (sch k) (ones V m.n)
            ≠ nofuel) := by
  obtain ⟨o, xs, h1, h2, h3⟩ := C05_levelset_solve_end_to_end A hm hwf hdiag hsame (b := ones V m.n) (by simp [ones])
  obtain ⟨xs', hS⟩ := exists_solution (A := A) hm (b := ones V m.n) (by simp [ones])
  have hlen : xs.length = m.n := by
    rw [sptrsvCsr_spec hm (by simp [ones]) hS] at h2
    cases h2
    exact hS.1
  refine ⟨xs, o, h2, h1, fun h0 => ?_⟩
  obtain ⟨h4, sch, h5⟩ := h3 h0
  refine ⟨fun sch hne => ?_, fun _ => sch, fun k h => by have := h5.symm.trans h; cases this⟩
  refine C117_agrees hC hs minusOne (D := wavefront A m g.p g.i N (some xs) sch time) hlen rfl (s := o) ?_ hN ?_
  · show LevelSet.buildLevelSet m.n g.p g.i = ok o
    rw [← hsame.1]; exact h1
  · intro k hk
    rcases h4 (sch k) with h | h
    · exact h
    · exact absurd h (hne k hk)

/-- **C117** (finding): if `build_levelSet_CSC` returns -1, as for every matrix with a dependence path through all
rows (C04), `SpTrsv_LL_Wavefront` returns the right-hand side as its solution. -/
theorem C117_wavefront_chain [LinearOrder T] (A : Arith V) (C : Cmp V) (eps : V) {srt : List T → List T} (hs : Sorts srt)
    (minusOne : T) {m : Mat V} {g : Csc} {o : LevelSet.Out} (hsame : Mat.SameDeps g m)
    (ho : LevelSet.buildLevelSet g.n g.p g.i = ok o) (hr : o.ret = -1) {N : Nat} (hN : 0 < N)
    (sch : Nat → Nat → List Nat) (time : Nat → T) {xs : List V} (hx : xs.length = m.n) :
    ∃ r, evaluate C eps srt minusOne (wavefront A m g.p g.i N (some xs) sch time) = ok r ∧
      r.solution = ones V m.n ∧ (r.alarm = true ↔ Differ C eps m.n xs (ones V m.n)) := by
  obtain ⟨r, h1, h2, h3, _⟩ := C117_evaluate C eps hs minusOne (D := wavefront A m g.p g.i N (some xs) sch time) (s := o)
    (by show LevelSet.buildLevelSet m.n g.p g.i = ok o
        rw [← hsame.1]; exact ho) hN (y := fun _ => ones V m.n) (fun k _ => ⟨by
      show sptrsvLevelset A m.p m.i m.x o.ret.toNat o.levelPtr o.levelSet (sch k) (ones V m.n) = _
      rw [hr]
      rfl, by simp [ones, wavefront]⟩) (fun c hc => by cases hc; exact hx)
  refine ⟨r, h1, h2, h3.trans ⟨?_, fun h => ⟨xs, rfl, h⟩⟩⟩
  rintro ⟨c, hc, hd⟩
  cases hc
  exact hd

/-- **C117.** A correct schedule of SpMP gives level sets: every row once, every row in a later level than the rows it
depends on; no access is out of bounds and no assertion fails. -/
theorem C117_spmp_levels {S : P2P.LevelTasks} {T L n : Nat} {dep : Nat → Nat → Prop} (h : S.Ok T L n dep)
    (debug : Bool) :
    ∃ ptr set, P2P.levelsetSpmp debug n T S = ok (L, ptr, set) ∧ PtrOk ptr L n ∧ set.Perm (List.range n) ∧
      ∀ u v lu lv, dep u v → lu < L → lv < L → InLevel ptr set lu u → InLevel ptr set lv v → lu < lv := by
  refine ⟨_, _, P2P.levels_loop h debug, h.lev, P2P.tasks_perm h, ?_⟩
  intro u v lu lv hd h1 h2 h3 h4
  obtain ⟨t, ht, hu⟩ := P2P.inLevel_task h h1 h3
  obtain ⟨t', ht', hv⟩ := P2P.inLevel_task h h2 h4
  exact h.dep u v t t' lu lv hd ht ht' h1 h2 hu hv

theorem Harness.forRange_step {σ : Type} {lo hi : Nat} (h : lo < hi) (f : Nat → σ → Res σ) (s : σ) :
    forRange lo hi f s = (f lo s >>= forRange (lo + 1) hi f) := by
  unfold forRange
  rw [show hi - lo = (hi - (lo + 1)) + 1 by omega]
  rfl

/-- **C117** (finding): if SpMP had fewer threads than `nthreads`, an element behind the end of its arrays is read. -/
theorem C117_spmp_larger_team {S : P2P.LevelTasks} {T T' L n : Nat} {dep : Nat → Nat → Prop} (h : S.Ok T L n dep)
    (hlen : S.taskBoundaries.length = T * L + 1) (hL : 0 < L) (hT : T < T') : P2P.levelsetSpmp false n T' S = ub := by
  have hl := h.levLen
  obtain ⟨s, h1, _⟩ := wp_iff.1 (P2P.level_wp h false hL (s := (0, List.replicate n 0)) rfl)
  have h2 : forRange 0 T' (P2P.taskStep false S 0) (0, List.replicate n 0) = ub := by
    rw [forRange_split _ (Nat.zero_le T) (Nat.le_of_lt hT), h1, ok_bind, forRange_step hT]
    have : P2P.taskStep false S 0 T s = ub := by
      unfold P2P.taskStep
      have hb : rd S.threadBoundaries T = ok (T * L) := by unfold rd; rw [h.thr T (Nat.le_refl _)]
      rw [hb, ok_bind]
      show (rd S.taskBoundaries (T * L + 0) >>= _) = ub
      have hub : rd S.taskBoundaries (T * L + 0 + 1) = ub := by
        unfold rd; rw [List.getElem?_eq_none (by omega)]
      rw [rd_getD 0 (by omega), ok_bind, hub]
      rfl
    rw [this]
    rfl
  unfold P2P.levelsetSpmp
  rw [forRange_step (by omega), h2]
  rfl

/-- **C117.** `SpTrsv_LL_Parallel_Wavefront` against the serial class, from the matrices to the solution, if SpMP gives
correct schedules: `F` is the full matrix in compressed rows, with a symmetric pattern and a full diagonal, that contains
the dependences of `m`. -/
theorem C117_parallel_wavefront [LinearOrder T] (A : Arith V) {C : Cmp V} {eps : V} (hC : SelfEqual C eps)
    {srt : List T → List T} (hs : Sorts srt) (minusOne : T) {m : Mat V} (h : m.LowerCsr) {F : Sp V} {nnz : Nat}
    (hF : F.WF) (hsq : F.rows = F.cols) (hn : F.cols = m.n) (hsym : ∀ u v, (u, v) ∈ F.coords → (v, u) ∈ F.coords)
    (hdiag : ∀ r, r < F.cols → (r, r) ∈ F.coords) (hdep : ∀ u v, m.RowDep u v → (u, v) ∈ F.coords)
    (hz : F.p.getD F.cols 0 ≤ nnz) (hi : nnz ≤ F.i.length) (hx : nnz ≤ F.x.length)
    {E : P2P.SpmpEnv V} (hE : E.OrdersOk) {nt : Nat} {levels : P2P.SpmpMat V → P2P.LevelTasks}
    (hO : ∀ n M, P2P.SpmpMat.Good E.recip M n →
      ∃ L, (levels M).Ok nt L n fun u v => u < v ∧ (u, v) ∈ (M.sp n).coords)
    (debug : Bool) {N : Nat} (hN : 0 < N) (time : Nat → T) :
    ∃ xs L ptr set, sptrsvCsr A m.n m.p m.i m.x (ones V m.n) = ok xs ∧
      (parallelWavefront A m debug E levels nt F nnz N (some xs) (fun _ _ => []) time).build = ok (L, ptr, set) ∧
      (∀ sch, (∀ k, k < N → sptrsvLevelset A m.p m.i m.x L ptr set (sch k) (ones V m.n) ≠ nofuel) →
        ∃ r, evaluate C eps srt minusOne (parallelWavefront A m debug E levels nt F nnz N (some xs) sch time) = ok r ∧
          Agrees C N time xs r) ∧
      ∃ sch : Nat → Nat → List Nat, ∀ k, sptrsvLevelset A m.p m.i m.x L ptr set (sch k) (ones V m.n) ≠ nofuel := by
  obtain ⟨M, e1, e2, _, e4, e5⟩ := P2P.convertToSpmp_spec (recip := E.recip) hF hsq (hE.order'' F.cols)
    (hE.dp0 F.cols) (hE.d0 F.cols) (hE.d0 F.cols) hz hi hx
  obtain ⟨L, hok⟩ := hO F.cols M ⟨e2, by rw [e4]; exact hsym, fun r hr => e5 r hr (hdiag r hr)⟩
  obtain ⟨ptr, set, f1, f2, f3, f4⟩ := C117_spmp_levels hok debug
  rw [hn] at f2 f3
  obtain ⟨xs, g1, g2, sch, g3⟩ := C05_levelset_solve_eq_serial A h f2 f3 (by
    intro u v lu lv huv
    refine f4 u v lu lv ⟨?_, by rw [e4]; exact hdep u v huv⟩
    obtain ⟨hv, l, hl⟩ := huv
    exact h.lower v hv _ hl) (b := ones V m.n) (by simp [ones])
  have hb : (do
      let M ← P2P.convertToSpmp E.recip E.order'' (E.dp0 F.cols) (E.d0 F.cols) (E.d0 F.cols) F nnz
      P2P.levelsetSpmp debug F.cols nt (levels M)) = ok (L, ptr, set) := by rw [e1, ok_bind]; exact f1
  obtain ⟨xs', hS⟩ := exists_solution (A := A) h (b := ones V m.n) (by simp [ones])
  have hlen : xs.length = m.n := by
    rw [sptrsvCsr_spec h (by simp [ones]) hS] at g1
    cases g1
    exact hS.1
  refine ⟨xs, L, ptr, set, g1, hb, fun sch hne => ?_, fun _ => sch, fun k h => by have := g3.symm.trans h; cases this⟩
  refine C117_agrees hC hs minusOne (D := parallelWavefront A m debug E levels nt F nnz N (some xs) sch time) hlen rfl
    hb hN ?_
  intro k hk
  rcases g2 (sch k) with h | h
  · exact h
  · exact absurd h (hne k hk)

/-- **C117.** A class that solves with a coarse schedule, against the serial class: any schedule that is valid will
do. -/
theorem C117_scheduled [LinearOrder T] (A : Arith V) {C : Cmp V} {eps : V} (hC : SelfEqual C eps)
    {srt : List T → List T} (hs : Sorts srt) (minusOne : T) {m : Mat V} (hm : m.LowerCsr) {s : Sched}
    (hv : s.Valid m.n m.RowDep) {build : Res Sched} (hb : build = ok s) {N : Nat} (hN : 0 < N) (time : Nat → T) :
    ∃ xs, sptrsvCsr A m.n m.p m.i m.x (ones V m.n) = ok xs ∧
      (∀ sch, (∀ k, k < N → sptrsvLbc A m.p m.i m.x s (sch k) (ones V m.n) ≠ nofuel) →
        ∃ r, evaluate C eps srt minusOne (scheduled A m build N (some xs) sch time) = ok r ∧ Agrees C N time xs r) ∧
      ∃ sch : Nat → Nat → List Nat, ∀ k, sptrsvLbc A m.p m.i m.x s (sch k) (ones V m.n) ≠ nofuel := by
  obtain ⟨xs, g1, g2, sch, g3⟩ := C06_lbc_solve_eq_serial A hm hv (b := ones V m.n) (by simp [ones])
  obtain ⟨xs', hS⟩ := exists_solution (A := A) hm (b := ones V m.n) (by simp [ones])
  have hlen : xs.length = m.n := by
    rw [sptrsvCsr_spec hm (by simp [ones]) hS] at g1
    cases g1
    exact hS.1
  refine ⟨xs, g1, fun sch hne => ?_, fun _ => sch, fun k h => by have := g3.symm.trans h; cases this⟩
  refine C117_agrees hC hs minusOne (D := scheduled A m build N (some xs) sch time) hlen rfl hb hN ?_
  intro k hk
  rcases g2 (sch k) with h | h
  · exact h
  · exact absurd h (hne k hk)

/-! ### Examples -/

namespace Harness

/-- Integers, which are all numbers. -/
def exCmp : Cmp Int := ⟨fun eps a b => decide (eps < |a - b|), fun _ => false⟩

example : SelfEqual exCmp 0 := by intro a _; simp [exCmp]

example : Sorts (fun l : List Nat => l.mergeSort) := fun ts => ⟨List.mergeSort_perm ts _, by
  simpa using List.pairwise_mergeSort (le := fun a b : Nat => decide (a ≤ b)) (by simp; omega) (by simp; omega) ts⟩

/-- Four rows, two levels, two threads. -/
def exLevels : P2P.LevelTasks := ⟨[0, 2, 4], [0, 1, 2, 3, 4], [0, 2, 4], [0, 2, 1, 3]⟩

theorem exLevels_in {k u : Nat} (h : InLevel exLevels.taskBoundaries exLevels.perm k u) (hk : k < 4) :
    (k, u) ∈ [(0, 0), (1, 2), (2, 1), (3, 3)] := by
  obtain ⟨j, ⟨lo, hi, h1, h2, h3, h4⟩, h5⟩ := h
  have : k = 0 ∨ k = 1 ∨ k = 2 ∨ k = 3 := by omega
  rcases this with rfl | rfl | rfl | rfl <;> cases h1 <;> cases h2
  · obtain rfl : j = 0 := by omega
    cases h5; decide
  · obtain rfl : j = 1 := by omega
    cases h5; decide
  · obtain rfl : j = 2 := by omega
    cases h5; decide
  · obtain rfl : j = 3 := by omega
    cases h5; decide

theorem exLevels_ok : exLevels.Ok 2 2 4 fun u v => (u, v) ∈ [(0, 2), (1, 2), (1, 3)] where
  thr t ht := by
    have : t = 0 ∨ t = 1 ∨ t = 2 := by omega
    rcases this with rfl | rfl | rfl <;> rfl
  tsk := PtrOk.mk' (by decide) rfl rfl (by decide)
  lev := PtrOk.mk' (by decide) rfl rfl (by decide)
  levLen := rfl
  size := by decide
  perm := by decide
  dep u v t t' l l' huv ht ht' hl hl' h1 h2 := by
    have e1 := exLevels_in h1 (by omega)
    have e2 := exLevels_in h2 (by omega)
    simp only [List.mem_cons, Prod.mk.injEq, List.not_mem_nil, or_false] at huv e1 e2
    omega

example : P2P.levelsetSpmp true 4 2 exLevels = ok (2, [0, 2, 4], [0, 1, 2, 3]) ∧
    P2P.levelsetSpmp false 4 3 exLevels = ub := by decide

/-- The simplest schedule: one thread, one row in each level. -/
def oneByOne (M : P2P.SpmpMat V) : P2P.LevelTasks :=
  ⟨[0, M.rowptr.length - 1], List.range M.rowptr.length, List.range M.rowptr.length, List.range (M.rowptr.length - 1)⟩

omit [Zero V] [One V] in
theorem ptrOk_range (n : Nat) : PtrOk (List.range (n + 1)) n n := by
  refine PtrOk.mk' (by simp) (by simp) ?_ ?_
  · rw [getD_range (by omega)]
  · intro b hb
    rw [getD_range (by omega), getD_range (by omega)]
    omega

omit [Zero V] [One V] in
/-- The assumption about SpMP in `C117_parallel_wavefront` can be met. -/
theorem oneByOne_ok (recip : V → V) (n : Nat) (M : P2P.SpmpMat V) (hM : P2P.SpmpMat.Good recip M n) :
    ∃ L, (oneByOne M).Ok 1 L n fun u v => u < v ∧ (u, v) ∈ (M.sp n).coords := by
  have hl : M.rowptr.length = n + 1 := hM.wf.plen
  refine ⟨n, ?_, ?_, ?_, ?_, ?_, ?_, ?_⟩ <;> unfold oneByOne <;> dsimp only
  · intro t ht
    have : t = 0 ∨ t = 1 := by omega
    rcases this with rfl | rfl
    · simp
    · simp [hl]
  · rw [hl, Nat.one_mul]; exact ptrOk_range n
  · rw [hl]; exact ptrOk_range n
  · rw [List.length_range, hl]
  · intro l hl'
    unfold P2P.LevelTasks.size
    dsimp only
    rw [hl, getD_range (by omega), getD_range (by omega)]
    simp only [List.range_one, List.map_singleton, List.sum_singleton, Nat.zero_mul, Nat.zero_add]
    rw [getD_range (by omega), getD_range (by omega)]
    omega
  · rw [hl, Nat.add_sub_cancel, List.take_of_length_le (by simp)]
  · intro u v t t' l l' huv ht ht' hl1 hl2 h1 h2
    have key : ∀ {k w : Nat}, InLevel (List.range M.rowptr.length) (List.range (M.rowptr.length - 1)) k w → w = k := by
      rintro k w ⟨j, ⟨lo, hi, e1, e2, e3, e4⟩, e5⟩
      have f1 := List.getElem?_eq_some_iff.1 e1
      have f2 := List.getElem?_eq_some_iff.1 e2
      have f5 := List.getElem?_eq_some_iff.1 e5
      obtain ⟨_, f1⟩ := f1
      obtain ⟨_, f2⟩ := f2
      obtain ⟨_, f5⟩ := f5
      simp only [List.getElem_range] at f1 f2 f5
      omega
    have k1 := key h1
    have k2 := key h2
    have : t = 0 := by omega
    have : t' = 0 := by omega
    subst_vars
    have := huv.1
    omega

/-- A matrix of two rows that are independent of each other. -/
def exPairMat : Mat Int := ⟨2, [0, 1, 2], [0, 1], [1, 1]⟩

example : ∃ o, evaluate exCmp 0 (fun l : List Nat => l) 0 (serial ⟨fun a l b => a - l * b, fun a _ => a⟩ exPairMat 1 none
    (fun _ => 7)) = ok o ∧ o.solution = [1, 1] ∧ o.alarm = false ∧ o.time = 7 := ⟨_, rfl, by decide, by decide, rfl⟩

end Harness

end Verif
