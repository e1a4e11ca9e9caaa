import Verif.Model.P2PCount
import Verif.Props.P2P
import Verif.Proof.Dense

/-!
# C139: the number of synchronisations reported for the solver of SpMP
-/

namespace Verif.P2PCount
open Res Exec P2P

variable {V : Type}

/-- The number of waits in the code of a thread. -/
def waits (code : List (PIns V)) : Nat := code.countP (fun i => match i with | .wait _ => true | _ => false)

theorem forN_sim {σ τ : Type} (R : σ → τ → Prop) {f : Nat → σ → Res σ} {g : Nat → τ → Res τ}
    (h : ∀ k s t r, R s t → f k s = ok r → ∃ t', g k t = ok t' ∧ R r t') :
    ∀ (c lo : Nat) (s : σ) (t : τ) (r : σ), R s t → forN c lo f s = ok r → ∃ t', forN c lo g t = ok t' ∧ R r t' := by
  intro c
  induction c with
  | zero =>
    intro lo s t r hR hr
    rw [forN] at hr
    exact ⟨t, rfl, Res.ok.inj hr ▸ hR⟩
  | succ c ih =>
    intro lo s t r hR hr
    rw [forN] at hr
    obtain ⟨s', h1, h2⟩ := bind_ok_inv hr
    obtain ⟨t', h3, h4⟩ := h lo s t s' hR h1
    obtain ⟨t'', h5, h6⟩ := ih (lo + 1) s' t' r h4 h2
    exact ⟨t'', by rw [forN, h3, ok_bind, h5], h6⟩

theorem waits_append (a b : List (PIns V)) : waits (a ++ b) = waits a + waits b := List.countP_append

theorem waits_acc (l : List (Instr V)) : waits (l.map PIns.acc) = 0 := by
  unfold waits
  rw [List.countP_eq_zero]
  intro a ha
  obtain ⟨i, -, rfl⟩ := List.mem_map.1 ha
  simp

theorem waitCode_waits {S : TaskGraph} {task : Nat} {w : List (PIns V)} (h : waitCode S task = ok w) :
    rd S.nparents task = ok (waits w) := by
  unfold waitCode at h
  obtain ⟨np, h1, h2⟩ := bind_ok_inv h
  have key : ∀ (c lo : Nat) (s r : List (PIns V)), forN c lo (fun k code => do
      let ps ← rd S.parents task
      let p ← rd ps k
      ok (code ++ [.wait p])) s = ok r → waits r = waits s + c := by
    intro c
    induction c with
    | zero =>
      intro lo s r hr
      rw [forN] at hr
      rw [Res.ok.inj hr, Nat.add_zero]
    | succ c ih =>
      intro lo s r hr
      rw [forN] at hr
      obtain ⟨s', h3, h4⟩ := bind_ok_inv hr
      obtain ⟨ps, -, h5⟩ := bind_ok_inv h3
      obtain ⟨p, -, h6⟩ := bind_ok_inv h5
      rw [ih _ _ _ h4, ← Res.ok.inj h6, waits_append]
      have : waits [PIns.wait (V := V) p] = 1 := rfl
      omega
  unfold forRange at h2
  have := key _ _ _ _ h2
  rw [h1, this]
  simp [waits]

theorem taskCode_waits {S : TaskGraph} {body : Nat → Res (List (Instr V))} {task : Nat} {c : List (PIns V)}
    (h : taskCode S body task = ok c) : rd S.nparents task = ok (waits c) := by
  unfold taskCode at h
  obtain ⟨w, h1, h⟩ := bind_ok_inv h
  obtain ⟨lo, -, h⟩ := bind_ok_inv h
  obtain ⟨hi, -, h⟩ := bind_ok_inv h
  obtain ⟨code, -, h⟩ := bind_ok_inv h
  rw [waitCode_waits h1, ← Res.ok.inj h, waits_append, waits_append, waits_acc]
  rfl

/-- **C139, synchronisations.**  If `codes` are the codes the threads run in a solve, the number that is reported is the
number of all the waits for parents in these codes. -/
theorem C139_waits {S : TaskGraph} {body : Nat → Res (List (Instr V))} {nthreads : Nat} {codes : List (List (PIns V))}
    (h : threadCodes (threadCode S body) (List.range nthreads) = ok codes) :
    numberOfP2P S nthreads = ok (codes.map waits).sum := by
  unfold threadCodes at h
  rw [List.range_eq_range', ← Verif.Util.forN_eq_forEach] at h
  obtain ⟨t, h1, h2⟩ := forN_sim (fun (codes : List (List (PIns V))) (m : Nat) => m = (codes.map waits).sum)
    (g := fun tid edges => do
      let lo ← rd S.threadBoundaries tid
      let hi ← rd S.threadBoundaries (tid + 1)
      forRange lo hi (fun task edges => do
        let np ← rd S.nparents task
        ok (edges + np)) edges) (by
    intro tid cs m r hR hr
    obtain ⟨c, h3, h4⟩ := bind_ok_inv hr
    unfold threadCode at h3
    obtain ⟨lo, h5, h3⟩ := bind_ok_inv h3
    obtain ⟨hi, h6, h3⟩ := bind_ok_inv h3
    unfold forRange at h3
    obtain ⟨m', h7, h8⟩ := forN_sim (fun (code : List (PIns V)) (x : Nat) => x = m + waits code)
      (g := fun task edges => do
        let np ← rd S.nparents task
        ok (edges + np)) (by
      intro task code x r hx hr
      obtain ⟨tc, h9, h10⟩ := bind_ok_inv hr
      refine ⟨x + waits tc, by rw [taskCode_waits h9, ok_bind], ?_⟩
      rw [← Res.ok.inj h10, waits_append, hx, Nat.add_assoc]) _ _ _ m _ rfl h3
    refine ⟨m', by rw [h5, ok_bind, h6, ok_bind]; exact h7, ?_⟩
    rw [← Res.ok.inj h4, h8, hR]
    simp) _ _ _ 0 _ rfl h
  rw [← h2]
  exact h1

/-- **C139, each task once.**  For a correct task graph this is the number of parents of all the tasks. -/
theorem C139_total {S : TaskGraph} {nthreads N : Nat} {dep : Nat → Nat → Prop} (h : S.Ok nthreads N dep) :
    numberOfP2P S nthreads = ok (S.nparents.take S.ntasks).sum := by
  have hlen : S.ntasks ≤ S.nparents.length := by
    rcases Nat.eq_zero_or_pos S.ntasks with h0 | h0
    · omega
    · obtain ⟨np, l, h1, -⟩ := h.par (S.ntasks - 1) (by omega)
      obtain ⟨hlt, -⟩ := List.getElem?_eq_some_iff.1 h1
      omega
  have hsum : ∀ (xs : List Nat) (s : Nat), forEach xs (fun v s => ok (s + v)) s = ok (s + xs.sum) := by
    intro xs
    induction xs with
    | nil => intro s; rfl
    | cons x xs ih => intro s; rw [forEach, ok_bind, ih, List.sum_cons, Nat.add_assoc]
  have hle : ∀ b, b ≤ nthreads → S.threadBoundaries.getD b 0 ≤ S.ntasks := by
    intro b hb
    obtain ⟨d, hd⟩ : ∃ d, nthreads = b + d := ⟨nthreads - b, by omega⟩
    have key : ∀ d, b + d ≤ nthreads → S.threadBoundaries.getD b 0 ≤ S.threadBoundaries.getD (b + d) 0 := by
      intro d
      induction d with
      | zero => intro _; exact Nat.le_refl _
      | succ d ih =>
        intro hd
        exact Nat.le_trans (ih (by omega)) (h.thr.mono (b + d) (by omega) _ _ (h.thr.get (by omega)) (h.thr.get (by omega)))
    have h1 := key d (by omega)
    rw [← hd] at h1
    have h2 := (h.thr.get (Nat.le_refl _)).symm.trans h.thr.last
    rw [Option.some.inj h2] at h1
    exact h1
  have key : ∀ (c lo : Nat), lo + c ≤ nthreads →
      forN c lo (fun tid edges => do
        let lo ← rd S.threadBoundaries tid
        let hi ← rd S.threadBoundaries (tid + 1)
        forRange lo hi (fun task edges => do
          let np ← rd S.nparents task
          ok (edges + np)) edges) (S.nparents.take (S.threadBoundaries.getD lo 0)).sum
        = ok (S.nparents.take (S.threadBoundaries.getD (lo + c) 0)).sum := by
    intro c
    induction c with
    | zero => intro lo _; rfl
    | succ c ih =>
      intro lo hlo
      have hl := h.thr.len
      have h1 := h.thr.mono lo (by omega) _ _ (h.thr.get (by omega)) (h.thr.get (by omega))
      have h2 := hle (lo + 1) (by omega)
      have e : S.threadBoundaries.getD (lo + 1) 0
          = S.threadBoundaries.getD lo 0 + (S.threadBoundaries.getD (lo + 1) 0 - S.threadBoundaries.getD lo 0) := by omega
      rw [forN, rd_getD 0 (show lo < S.threadBoundaries.length by omega), ok_bind,
        rd_getD 0 (show lo + 1 < S.threadBoundaries.length by omega), ok_bind]
      unfold forRange
      rw [forRange_rd S.nparents (fun v s => ok (s + v)) _ _ _ (by omega), hsum, ok_bind, ← List.sum_append, ← List.take_add,
        ← e]
      have := ih (lo + 1) (by omega)
      unfold forRange at this
      rw [this]
      congr 4
      omega
  have h0 := (h.thr.get (Nat.zero_le _)).symm.trans h.thr.first
  have h1 := (h.thr.get (Nat.le_refl _)).symm.trans h.thr.last
  have := key nthreads 0 (by omega)
  rw [Nat.zero_add, Option.some.inj h0, Option.some.inj h1, List.take_zero, List.sum_nil] at this
  exact this

/-! ### Examples -/

example : numberOfP2P exTasks 2 = ok (exTasks.nparents.take exTasks.ntasks).sum := C139_total exTasks_ok

example : (exTasks.nparents.take exTasks.ntasks).sum = 1 := by decide

/-- The codes of the two threads, with no accesses to the vector; one wait. -/
example : numberOfP2P exTasks 2 = ok ([[.notify 0, .wait 2, .notify 1], [.notify 2, .notify 3]].map (waits (V := Int))).sum :=
  C139_waits (body := fun _ => ok []) (by decide +kernel)

end Verif.P2PCount
