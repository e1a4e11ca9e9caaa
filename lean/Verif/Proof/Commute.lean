import Verif.Model.Machine
import Verif.ResLemmas
import Mathlib.Data.List.Basic
import Mathlib.Data.List.Count

/-! # Threads whose instructions commute: every execution equals the sequential one -/

namespace Verif.Mach
open Res

variable {I R M : Type}

/-- The two instructions can be exchanged when different threads perform them. -/
def Indep (step : I → R → M → Res (R × M)) (a b : I) : Prop :=
  ∀ (r s : R) (m : M),
    (step a r m >>= fun x => step b s x.2 >>= fun y => ok (x.1, y.1, y.2)) =
    (step b s m >>= fun y => step a r y.2 >>= fun x => ok (x.1, y.1, x.2))

theorem bind_assoc' {α β γ : Type} (x : Res α) (f : α → Res β) (g : β → Res γ) :
    (x >>= f) >>= g = x >>= fun a => f a >>= g := by
  cases x <;> rfl

theorem Indep.use {step : I → R → M → Res (R × M)} {a b : I} (h : Indep step a b) (r s : R) (m : M)
    {β : Type} (k : R → R → M → Res β) :
    (step a r m >>= fun x => step b s x.2 >>= fun y => k x.1 y.1 y.2) =
    (step b s m >>= fun y => step a r y.2 >>= fun x => k x.1 y.1 x.2) := by
  have := congrArg (fun (z : Res (R × R × M)) => z >>= fun w => k w.1 w.2.1 w.2.2) (h r s m)
  simpa [bind_assoc', ok_bind] using this

theorem Indep.symm {step : I → R → M → Res (R × M)} {a b : I} (h : Indep step a b) :
    Indep step b a := by
  intro r s m
  have := h.use s r m (fun x y m => ok (y, x, m))
  exact this.symm

theorem runSched_append (step : I → R → M → Res (R × M)) (s1 s2 : List Nat) :
    ∀ (ths : List (Thr I R)) (m : M),
      runSched step (s1 ++ s2) ths m = runSched step s1 ths m >>= fun x => runSched step s2 x.1 x.2 := by
  induction s1 with
  | nil => intro ths m; simp [runSched, ok_bind]
  | cons t s1 ih =>
    intro ths m
    rw [List.cons_append, runSched, runSched]
    split
    · rw [bind_assoc']
      simp only [ih]
    · rw [ih]

theorem runSched_skip (step : I → R → M → Res (R × M)) (t : Nat) (sch : List Nat) (ths : List (Thr I R)) (m : M)
    (h : ∀ i rest r, ths[t]? ≠ some ⟨i :: rest, r⟩) :
    runSched step (t :: sch) ths m = runSched step sch ths m := by
  rw [runSched]
  split
  · rename_i i rest r heq
    exact absurd heq (h i rest r)
  · rfl

theorem runSched_step (step : I → R → M → Res (R × M)) (t : Nat) (sch : List Nat) (ths : List (Thr I R)) (m : M)
    {i : I} {rest : List I} {r : R} (h : ths[t]? = some ⟨i :: rest, r⟩) :
    runSched step (t :: sch) ths m =
      step i r m >>= fun x => runSched step sch (ths.set t ⟨rest, x.1⟩) x.2 := by
  rw [runSched, h]

/-- The next instruction of a thread can be performed first. -/
theorem move_front (step : I → R → M → Res (R × M)) (t : Nat) (ins : I) (rest : List I) (r : R) :
    ∀ (sch : List Nat) (ths : List (Thr I R)) (m : M), t ∈ sch →
      ths[t]? = some ⟨ins :: rest, r⟩ →
      (∀ s th, s ≠ t → ths[s]? = some th → ∀ b ∈ th.code, Indep step ins b) →
      runSched step sch ths m = runSched step (t :: sch.erase t) ths m := by
  intro sch
  induction sch with
  | nil => intro ths m h; simp at h
  | cons s sch ih =>
    intro ths m hmem hth hind
    by_cases hst : s = t
    · subst hst
      rw [List.erase_cons_head]
    · have hmem' : t ∈ sch := by
        rcases List.mem_cons.mp hmem with h | h
        · exact absurd h.symm hst
        · exact h
      have her : (s :: sch).erase t = s :: sch.erase t := by
        rw [List.erase_cons_tail]
        simpa using hst
      rw [her]
      have htl : t < ths.length := by
        rw [List.getElem?_eq_some_iff] at hth
        exact hth.1
      by_cases hex : ∃ i' rest' r', ths[s]? = some ⟨i' :: rest', r'⟩
      · obtain ⟨i', rest', r', hs⟩ := hex
        have hsl : s < ths.length := by
          rw [List.getElem?_eq_some_iff] at hs
          exact hs.1
        rw [runSched_step step s sch ths m hs, runSched_step step t _ ths m hth]
        have hI := hind s _ hst hs i' (by simp)
        have e1 : ∀ x : R × M, runSched step sch (ths.set s ⟨rest', x.1⟩) x.2 =
            step ins r x.2 >>= fun y =>
              runSched step (sch.erase t) ((ths.set s ⟨rest', x.1⟩).set t ⟨rest, y.1⟩) y.2 := by
          intro x
          rw [ih _ _ hmem' (by rw [List.getElem?_set_ne hst]; exact hth)]
          · rw [runSched_step step t _ _ _ (by rw [List.getElem?_set_ne hst]; exact hth)]
          · intro s' th hs' hget b hb
            by_cases h2 : s' = s
            · subst h2
              rw [List.getElem?_set_self hsl] at hget
              simp only [Option.some.injEq] at hget
              subst hget
              exact hind s' _ hs' hs b (by simp [hb])
            · rw [List.getElem?_set_ne (Ne.symm h2)] at hget
              exact hind s' th hs' hget b hb
        have e2 : ∀ y : R × M, runSched step (s :: sch.erase t) (ths.set t ⟨rest, y.1⟩) y.2 =
            step i' r' y.2 >>= fun x =>
              runSched step (sch.erase t) ((ths.set t ⟨rest, y.1⟩).set s ⟨rest', x.1⟩) x.2 := by
          intro y
          rw [runSched_step step s _ _ _ (by rw [List.getElem?_set_ne (Ne.symm hst)]; exact hs)]
        simp only [e1, e2]
        have := hI.use r r' m (fun x y m => runSched step (sch.erase t) ((ths.set t ⟨rest, x⟩).set s ⟨rest', y⟩) m)
        rw [this]
        congr 1
        funext x
        congr 1
        funext y
        rw [List.set_comm _ _ hst]
      · have hskip : ∀ (ths' : List (Thr I R)), ths'[s]? = ths[s]? → ∀ i rest r, ths'[s]? ≠ some ⟨i :: rest, r⟩ := by
          intro ths' he i rest r h
          rw [he] at h
          exact hex ⟨i, rest, r, h⟩
        rw [runSched_skip step s sch ths m (hskip ths rfl), ih ths m hmem' hth hind,
          runSched_step step t _ ths m hth, runSched_step step t _ ths m hth]
        congr 1
        funext x
        rw [runSched_skip step s _ _ _ (hskip _ (by rw [List.getElem?_set_ne (Ne.symm hst)]))]

/-- Run the remaining codes of the threads one after the other. -/
def seqThr (step : I → R → M → Res (R × M)) : List (Thr I R) → M → Res M
  | [], m => ok m
  | th :: ths, m => runCode step th.code th.reg m >>= fun t => seqThr step ths t.2

theorem seqThr_done (step : I → R → M → Res (R × M)) (ths : List (Thr I R)) (m : M)
    (h : ∀ th ∈ ths, th.code = []) : seqThr step ths m = ok m := by
  induction ths with
  | nil => rfl
  | cons th ths ih =>
    rw [seqThr, h th (by simp), runCode, ok_bind]
    exact ih fun th hth => h th (by simp [hth])

theorem seqThr_split (step : I → R → M → Res (R × M)) (pre : List (Thr I R)) (hpre : ∀ th ∈ pre, th.code = [])
    (ths : List (Thr I R)) (m : M) : seqThr step (pre ++ ths) m = seqThr step ths m := by
  induction pre with
  | nil => rfl
  | cons th pre ih =>
    rw [List.cons_append, seqThr, hpre th (by simp), runCode, ok_bind]
    exact ih fun th hth => hpre th (by simp [hth])

/-- Different threads only have instructions that can be exchanged. -/
def AllIndep (step : I → R → M → Res (R × M)) (ths : List (Thr I R)) : Prop :=
  ∀ (s t : Nat), s ≠ t → ∀ (th th' : Thr I R), ths[s]? = some th → ths[t]? = some th' →
    ∀ a ∈ th.code, ∀ b ∈ th'.code, Indep step a b

theorem runSched_done (step : I → R → M → Res (R × M)) (sch : List Nat) (ths : List (Thr I R)) (m : M)
    (h : ∀ th ∈ ths, th.code = []) : runSched step sch ths m = ok (ths, m) := by
  induction sch with
  | nil => rfl
  | cons t sch ih =>
    rw [runSched_skip]
    · exact ih
    · intro i rest r hget
      have := h _ (List.mem_of_getElem? hget)
      simp at this

theorem exists_first (ths : List (Thr I R)) (h : ¬ ∀ th ∈ ths, th.code = []) :
    ∃ pre i rest r post, ths = pre ++ ⟨i :: rest, r⟩ :: post ∧ ∀ th ∈ pre, th.code = [] := by
  induction ths with
  | nil => simp at h
  | cons th ths ih =>
    by_cases hth : th.code = []
    · obtain ⟨pre, i, rest, r, post, he, hp⟩ := ih (by
        intro hall
        exact h (by intro x hx; rcases List.mem_cons.mp hx with rfl | hx; exacts [hth, hall _ hx]))
      exact ⟨th :: pre, i, rest, r, post, by rw [he]; rfl, by
        intro x hx
        rcases List.mem_cons.mp hx with rfl | hx
        exacts [hth, hp _ hx]⟩
    · obtain ⟨code, r⟩ := th
      cases code with
      | nil => exact absurd rfl hth
      | cons i rest => exact ⟨[], i, rest, r, ths, rfl, by simp⟩

/-- A scheduler that lets every thread finish yields the sequential result. -/
theorem runSched_seq (step : I → R → M → Res (R × M)) :
    ∀ (N : Nat) (sch : List Nat), sch.length = N → ∀ (ths : List (Thr I R)) (m : M), AllIndep step ths →
      (∀ t th, ths[t]? = some th → th.code.length ≤ sch.count t) →
      (runSched step sch ths m >>= fun x => ok x.2) = seqThr step ths m ∧
        ∀ x, runSched step sch ths m = ok x → ∀ th ∈ x.1, th.code = [] := by
  intro N
  induction N with
  | zero =>
    intro sch hN ths m _ hc
    have : sch = [] := List.length_eq_zero_iff.mp hN
    subst this
    have hall : ∀ th ∈ ths, th.code = [] := by
      intro th hth
      obtain ⟨t, ht⟩ := List.mem_iff_getElem?.mp hth
      have := hc t th ht
      simpa using this
    rw [seqThr_done step ths m hall, runSched_done step _ ths m hall]
    refine ⟨rfl, ?_⟩
    intro x hx
    cases hx
    exact hall
  | succ N ih =>
    intro sch hN ths m hind hc
    by_cases hall : ∀ th ∈ ths, th.code = []
    · rw [seqThr_done step ths m hall, runSched_done step _ ths m hall]
      refine ⟨rfl, ?_⟩
      intro x hx
      cases hx
      exact hall
    · obtain ⟨pre, i, rest, r, post, he, hp⟩ := exists_first ths hall
      have hget : ths[pre.length]? = some ⟨i :: rest, r⟩ := by
        rw [he]; simp
      have hmem : pre.length ∈ sch := by
        have := hc _ _ hget
        simp only [List.length_cons] at this
        exact List.count_pos_iff.mp (by omega)
      rw [move_front step pre.length i rest r sch ths m hmem hget (by
        intro s th hs hg b hb
        exact hind pre.length s (Ne.symm hs) _ th hget hg i (by simp) b hb)]
      rw [runSched_step step _ _ _ _ hget]
      have hset : ∀ x, ths.set pre.length ⟨rest, x⟩ = pre ++ ⟨rest, x⟩ :: post := by
        intro x
        rw [he]
        simp
      have hseq : seqThr step ths m = step i r m >>= fun x => seqThr step (ths.set pre.length ⟨rest, x.1⟩) x.2 := by
        conv_lhs => rw [he, seqThr_split step pre hp, seqThr, runCode, bind_assoc']
        congr 1
        funext x
        rw [hset, seqThr_split step pre hp, seqThr]
      rw [hseq]
      have hlt : pre.length < ths.length := by
        rw [List.getElem?_eq_some_iff] at hget
        exact hget.1
      have hI : ∀ x : R × M, AllIndep step (ths.set pre.length ⟨rest, x.1⟩) := by
        intro x s t hst th th' hs ht a ha b hb
        have key : ∀ (s : Nat) (th : Thr I R), (ths.set pre.length ⟨rest, x.1⟩)[s]? = some th →
            ∃ th0, ths[s]? = some th0 ∧ ∀ a ∈ th.code, a ∈ th0.code := by
          intro s th hs
          by_cases h2 : pre.length = s
          · subst h2
            rw [List.getElem?_set_self hlt] at hs
            cases hs
            exact ⟨_, hget, by intro a ha; simp [ha]⟩
          · rw [List.getElem?_set_ne h2] at hs
            exact ⟨th, hs, fun a ha => ha⟩
        obtain ⟨th0, h0, hm0⟩ := key s th hs
        obtain ⟨th1, h1, hm1⟩ := key t th' ht
        exact hind s t hst th0 th1 h0 h1 a (hm0 a ha) b (hm1 b hb)
      have hC : ∀ x : R × M, ∀ t th, (ths.set pre.length ⟨rest, x.1⟩)[t]? = some th →
          th.code.length ≤ (sch.erase pre.length).count t := by
        intro x t th ht
        by_cases h2 : pre.length = t
        · subst h2
          rw [List.getElem?_set_self hlt] at ht
          cases ht
          have := hc _ _ hget
          simp only [List.length_cons] at this
          rw [List.count_erase_self]
          simp only
          omega
        · rw [List.getElem?_set_ne h2] at ht
          rw [List.count_erase_of_ne (Ne.symm h2)]
          exact hc t th ht
      have hL : (sch.erase pre.length).length = N := by
        rw [List.length_erase_of_mem hmem]
        omega
      have IH : ∀ x : R × M,
          (runSched step (sch.erase pre.length) (ths.set pre.length ⟨rest, x.1⟩) x.2 >>= fun z => ok z.2) =
            seqThr step (ths.set pre.length ⟨rest, x.1⟩) x.2 ∧
          ∀ z, runSched step (sch.erase pre.length) (ths.set pre.length ⟨rest, x.1⟩) x.2 = ok z →
            ∀ th ∈ z.1, th.code = [] := by
        intro x
        exact ih _ hL _ x.2 (hI x) (hC x)
      constructor
      · rw [bind_assoc']
        congr 1
        funext x
        exact (IH x).1
      · intro z hz
        cases hq : step i r m with
        | ok x =>
          rw [hq, ok_bind] at hz
          exact (IH x).2 z hz
        | ub => rw [hq] at hz; cases hz
        | exn => rw [hq] at hz; cases hz
        | nofuel => rw [hq] at hz; cases hz

theorem seqThr_map (step : I → R → M → Res (R × M)) (r0 : R) (codes : List (List I)) :
    ∀ m, seqThr step (codes.map fun c => ⟨c, r0⟩) m = seqAll step r0 codes m := by
  induction codes with
  | nil => intro m; rfl
  | cons c codes ih =>
    intro m
    rw [List.map_cons, seqThr, seqAll]
    congr 1
    funext x
    exact ih x.2

/-- Every list of threads has a scheduler that lets all threads finish. -/
theorem exists_complete (ths : List (Thr I R)) :
    ∃ ext : List Nat, ∀ t th, ths[t]? = some th → th.code.length ≤ ext.count t := by
  refine ⟨(List.range ths.length).flatMap
      (fun t => List.replicate ((ths[t]?.map fun th => th.code.length).getD 0) t), ?_⟩
  intro t th ht
  have htl : t < ths.length := by
    rw [List.getElem?_eq_some_iff] at ht
    exact ht.1
  have hsub : (List.replicate th.code.length t).Sublist ((List.range ths.length).flatMap
      (fun t => List.replicate ((ths[t]?.map fun th => th.code.length).getD 0) t)) := by
    have : List.replicate th.code.length t =
        (fun t => List.replicate ((ths[t]?.map fun th => th.code.length).getD 0) t) t := by
      simp [ht]
    rw [this, List.flatMap_def]
    apply List.sublist_flatten_of_mem
    exact List.mem_map.mpr ⟨t, by simpa using htl, rfl⟩
  have := hsub.count_le t
  simpa using this

/-- Every execution of an `omp for` loop whose threads have independent instructions gives the
result of the sequential execution, unless the scheduler does not let all threads finish. -/
theorem parFor_seq (step : I → R → M → Res (R × M)) (r0 : R) (codes : List (List I)) (sch : List Nat) (m m' : M)
    (hind : ∀ (s t : Nat), s ≠ t → ∀ (c c' : List I), codes[s]? = some c → codes[t]? = some c' → ∀ a ∈ c, ∀ b ∈ c', Indep step a b)
    (hseq : seqAll step r0 codes m = ok m') :
    parFor step r0 codes sch m = ok m' ∨ parFor step r0 codes sch m = nofuel := by
  obtain ⟨ths, hths⟩ : ∃ ths : List (Thr I R), ths = codes.map fun c => ⟨c, r0⟩ := ⟨_, rfl⟩
  have hI : AllIndep step ths := by
    intro s t hst th th' hs ht a ha b hb
    rw [hths, List.getElem?_map] at hs ht
    obtain ⟨c, hc, rfl⟩ := Option.map_eq_some_iff.mp hs
    obtain ⟨c', hc', rfl⟩ := Option.map_eq_some_iff.mp ht
    exact hind s t hst c c' hc hc' a ha b hb
  obtain ⟨ext, hext⟩ := exists_complete ths
  have hcount : ∀ t th, ths[t]? = some th → th.code.length ≤ (sch ++ ext).count t := by
    intro t th ht
    have := hext t th ht
    rw [List.count_append]
    omega
  have hmain : (runSched step (sch ++ ext) ths m >>= fun x => ok x.2) = ok m' := by
    rw [(runSched_seq step _ (sch ++ ext) rfl ths m hI hcount).1, hths, seqThr_map, hseq]
  rw [runSched_append, bind_assoc'] at hmain
  unfold parFor
  rw [← hths]
  cases hq : runSched step sch ths m with
  | ok x =>
    rw [hq, ok_bind] at hmain
    rw [ok_bind]
    by_cases hall : x.1.all (fun th => th.code.isEmpty) = true
    · left
      rw [if_pos hall]
      rw [runSched_done step ext x.1 x.2 (by
        intro th hth
        have := List.all_eq_true.mp hall th hth
        simpa using this), ok_bind] at hmain
      exact hmain
    · right
      rw [if_neg hall]
  | ub => rw [hq] at hmain; cases hmain
  | exn => rw [hq] at hmain; cases hmain
  | nofuel => rw [hq] at hmain; cases hmain

end Verif.Mach
