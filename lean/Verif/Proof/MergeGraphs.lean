import Verif.Spec.MergeGraphs
import Verif.Model.MergeGraphs
import Verif.Proof.BcscCompress
import Verif.Proof.BlockCsc

/-! # Proofs: `merge_graphs` -/

namespace Verif.MergeG
open Res Bcsc

/-- The supernode of every column. -/
theorem supers_spec {n nodes : Nat} {super : List Nat} (hp : PtrOk super nodes n) :
    wp (supers n nodes super) (fun sup => sup.length = n ∧ ∀ v t, t < nodes →
      super.getD t 0 ≤ v → v < super.getD (t + 1) 0 → sup.getD v 0 = t) := by
  have hpl := hp.len
  unfold supers
  rw [wp_bind]
  obtain ⟨P, hP⟩ : ∃ P : Nat → List Nat → Prop, P = fun c s => ∀ v t, t < nodes → v < c →
    super.getD t 0 ≤ v → v < super.getD (t + 1) 0 → s.getD v 0 = t := ⟨_, rfl⟩
  refine forRange_wp' (fun i (st : List Nat × Nat) => st.1.length = n ∧ st.2 = super.getD i 0 ∧
    P st.2 st.1) (by omega) ⟨by simp, hp.d0.symm, by rw [hP]; intro v t _ hv; simp at hv⟩ ?_ ?_
  · rintro i ⟨s, c⟩ _ hi ⟨h1, h2, h3⟩
    dsimp only at h1 h2 h3 ⊢
    have hab := hp.dmono hi
    have hb := hp.dle (b := i + 1) (by omega)
    rw [rd_getD 0 (show i < super.length by omega), ok_bind,
      rd_getD 0 (show i + 1 < super.length by omega), ok_bind]
    refine whileF_wp (fun (st : List Nat × Nat) => st.1.length = n ∧ super.getD i 0 ≤ st.2 ∧
      st.2 ≤ super.getD (i + 1) 0 ∧ P st.2 st.1)
      (fun st => super.getD (i + 1) 0 - st.2) ?_ _ _ (by show _ - c ≤ _; omega)
      ⟨h1, by show _ ≤ c; omega, by show c ≤ _; omega, h3⟩
    rintro ⟨s, c⟩ ⟨a1, a2, a3, a4⟩
    dsimp only at a1 a2 a3 a4 ⊢
    rw [wp_ok]
    by_cases hc : super.getD i 0 ≤ c ∧ c < super.getD (i + 1) 0
    · rw [if_pos (by simpa using hc)]
      refine ⟨by omega, ?_⟩
      rw [wr_eq (by omega), ok_bind, wp_ok]
      refine ⟨⟨by simp [a1], by dsimp only; omega, by dsimp only; omega, ?_⟩, by dsimp only; omega⟩
      rw [hP] at a4 ⊢
      intro v t ht hv v1 v2
      dsimp only at hv ⊢
      rw [getD_set]
      by_cases e : c = v
      · rw [if_pos ⟨e, by omega⟩]
        exact hp.block_unique (k := v) hi ht (by omega) (by omega) v1 v2
      · rw [if_neg (fun x => e x.1)]
        exact a4 v t ht (by omega) v1 v2
    · rw [if_neg (by simpa using hc)]
      exact ⟨a1, by omega, a4⟩
  · rintro ⟨s, c⟩ ⟨h1, h2, h3⟩
    rw [wp_ok]
    dsimp only at h1 h2 h3 ⊢
    rw [hP] at h3
    refine ⟨h1, fun v t ht v1 v2 => h3 v t ht ?_ v1 v2⟩
    have := hp.dle (b := t + 1) ht
    rw [h2, hp.dlast]; omega

/-- The supernodes of some rows, each once. -/
theorem once_eq {nodes n nr : Nat} {sup ix : List Nat} {pos : Nat → Nat} (hl : sup.length = n)
    (hs : ∀ v, v < n → sup.getD v 0 < nodes)
    (h3 : ∀ r, r < nr → ∃ c, ix[pos r]? = some c ∧ c < n) :
    ∃ L : List Nat, L.Nodup ∧ (∀ t, t ∈ L ↔ ∃ r c, r < nr ∧ ix[pos r]? = some c ∧ sup.getD c 0 = t) ∧
      ∀ (σ : Type) (out : Nat → σ → Res σ) (s : σ),
      once nodes sup ix nr pos out (List.replicate nodes false) s =
        (forEach L out s >>= fun s => ok (List.replicate nodes false, s)) := by
  have key : ∀ (c k : Nat) (ip : List Bool) (l : List Nat), k + c = nr → Marks nodes ip l →
      ∃ ip' l', Marks nodes ip' (l ++ l') ∧
        (∀ t, t ∈ l ++ l' ↔ t ∈ l ∨ ∃ r c, k ≤ r ∧ r < nr ∧ ix[pos r]? = some c ∧ sup.getD c 0 = t) ∧
        ∀ (σ : Type) (out : Nat → σ → Res σ) (s : σ),
        forN c k (fun r (st : List Bool × List Nat × σ) => do
          let c ← rd ix (pos r)
          let row ← rd sup c
          let seen ← rd st.1 row
          if seen then ok st
          else do
            let ip ← wr st.1 row true
            if st.2.1.length < nodes then do
              let s ← out row st.2.2
              ok (ip, st.2.1 ++ [row], s)
            else ub) (ip, l, s) = (forEach l' out s >>= fun s => ok (ip', l ++ l', s)) := by
    intro c
    induction c with
    | zero =>
      intro k ip l hk hM
      refine ⟨ip, [], by simpa using hM, fun t => ?_, fun σ out s => by simp [forN, forEach]⟩
      rw [List.append_nil]
      constructor
      · exact .inl
      · rintro (h | ⟨r, _, h1, h2, _⟩)
        · exact h
        · omega
    | succ c ih =>
      intro k ip l hk hM
      obtain ⟨q, hq1, hq2⟩ := h3 k (by omega)
      have hrow := hs q hq2
      have r1 : rd ix (pos k) = ok q := by unfold rd; rw [hq1]
      have r2 : rd sup q = ok (sup.getD q 0) := rd_getD 0 (by omega)
      have r3 : rd ip (sup.getD q 0) = ok (ip.getD (sup.getD q 0) false) :=
        rd_getD false (by rw [hM.1]; exact hrow)
      have split : ∀ t, (∃ r c, k ≤ r ∧ r < nr ∧ ix[pos r]? = some c ∧ sup.getD c 0 = t) ↔
          t = sup.getD q 0 ∨ ∃ r c, k + 1 ≤ r ∧ r < nr ∧ ix[pos r]? = some c ∧ sup.getD c 0 = t := by
        intro t
        constructor
        · rintro ⟨r, c', e1, e2, e3, e4⟩
          rcases Nat.eq_or_lt_of_le e1 with e | e
          · subst e
            rw [hq1] at e3
            obtain rfl : q = c' := by injection e3
            exact .inl e4.symm
          · exact .inr ⟨r, c', e, e2, e3, e4⟩
        · rintro (rfl | ⟨r, c', e1, e2⟩)
          · exact ⟨k, q, Nat.le_refl _, by omega, hq1, rfl⟩
          · exact ⟨r, c', by omega, e2⟩
      by_cases hseen : ip.getD (sup.getD q 0) false = true
      · obtain ⟨ip', l', hM', hmem, he⟩ := ih (k + 1) ip l (by omega) hM
        have hin : sup.getD q 0 ∈ l := (hM.2.1 _ hrow).1 hseen
        refine ⟨ip', l', hM', fun t => ?_, ?_⟩
        · rw [hmem, split]
          constructor
          · rintro (h | h)
            · exact .inl h
            · exact .inr (.inr h)
          · rintro (h | rfl | h)
            · exact .inl h
            · exact .inl hin
            · exact .inr h
        · intro σ out s
          rw [← he σ out s]
          simp only [forN, r1, r2, r3, ok_bind, hseen, if_true]
      · have hrl : sup.getD q 0 ∉ l := fun h => hseen ((hM.2.1 _ hrow).2 h)
        have hlen := length_lt_of_nodup hM.2.2.1 hM.2.2.2 hrow hrl
        have hM2 : Marks nodes (ip.set (sup.getD q 0) true) (l ++ [sup.getD q 0]) := by
          obtain ⟨m1, m2, m3, m4⟩ := hM
          refine ⟨by simp [m1], ?_, ?_, ?_⟩
          · intro x hx
            rw [getD_set, List.mem_append, List.mem_singleton]
            by_cases hxr : sup.getD q 0 = x
            · rw [if_pos ⟨hxr, by omega⟩]; exact ⟨fun _ => .inr hxr.symm, fun _ => rfl⟩
            · rw [if_neg (fun h => hxr h.1), m2 x hx]
              constructor
              · exact .inl
              · rintro (h | h)
                · exact h
                · exact absurd h.symm hxr
          · refine List.Nodup.append m3 (List.nodup_singleton _) ?_
            intro x hx hxr
            rw [List.mem_singleton] at hxr
            subst hxr; exact hrl hx
          · intro x hx
            rcases List.mem_append.1 hx with h | h
            · exact m4 x h
            · rw [List.mem_singleton] at h; omega
        obtain ⟨ip', l', hM', hmem, he⟩ := ih (k + 1) _ _ (by omega) hM2
        refine ⟨ip', sup.getD q 0 :: l', by simpa using hM', fun t => ?_, ?_⟩
        · have := hmem t
          rw [List.append_assoc, List.singleton_append] at this
          rw [this, split, List.mem_append, List.mem_singleton, or_assoc]
        · intro σ out s
          simp only [forN, r1, r2, r3, ok_bind, hseen, forEach, Bool.false_eq_true, if_false]
          rw [wr_eq (by rw [hM.1]; exact hrow), ok_bind, if_pos hlen]
          cases ho : out (sup.getD q 0) s with
          | ok s' =>
            simp only [ok_bind]
            rw [he σ out s']
            simp
          | ub => rfl
          | exn => rfl
          | nofuel => rfl
  obtain ⟨ip', l', hM', hmem, he⟩ := key nr 0 _ [] (by omega) (Marks.init nodes)
  rw [List.nil_append] at hM'
  refine ⟨l', hM'.2.2.1, fun t => ?_, ?_⟩
  · have := hmem t
    rw [List.nil_append] at this
    rw [this]
    constructor
    · rintro (h | ⟨r, c, _, h⟩)
      · exact absurd h (by simp)
      · exact ⟨r, c, h⟩
    · rintro ⟨r, c, h⟩; exact .inr ⟨r, c, Nat.zero_le _, h⟩
  · intro σ out s
    unfold once forRange
    rw [Nat.sub_zero, he σ out s]
    cases forEach l' out s with
    | ok s' =>
      simp only [ok_bind, List.nil_append]
      rw [clear_eq hM', ok_bind]
    | ub => rfl
    | exn => rfl
    | nofuel => rfl

/-! ### Writing the columns one after the other -/

variable {N : Nat} {cols : Nat → List Nat}

/-- The entries of the columns before `c`. -/
def flat (cols : Nat → List Nat) (c : Nat) : List Nat := ((List.range c).map cols).flatten

theorem flat_succ (c : Nat) : flat cols (c + 1) = flat cols c ++ cols c := by
  simp [flat, List.range_succ]

theorem flat_length_mono {a b : Nat} (h : a ≤ b) : (flat cols a).length ≤ (flat cols b).length := by
  induction b with
  | zero => rw [Nat.le_zero.1 h]
  | succ b ih =>
    rcases Nat.eq_or_lt_of_le h with h | h
    · rw [h]
    · rw [flat_succ, List.length_append]; have := ih (by omega); omega

/-- The columns before `c` are written, and the entries `l` of column `c`. -/
structure Mid (N : Nat) (cols : Nat → List Nat) (c : Nat) (l : List Nat) (o : Out) : Prop where
  plen : o.p.length = N + 1
  ilen : o.i.length = (flat cols N).length
  ptr : ∀ k, k ≤ c → o.p.getD k 0 = (flat cols k).length
  next : o.p.getD (c + 1) 0 = (flat cols c).length + l.length
  pos : o.pos = (flat cols c).length + l.length
  ent : o.i.take o.pos = flat cols c ++ l

/-- The columns before `c` are written. -/
structure Done (N : Nat) (cols : Nat → List Nat) (c : Nat) (o : Out) : Prop where
  plen : o.p.length = N + 1
  ilen : o.i.length = (flat cols N).length
  ptr : ∀ k, k ≤ c → o.p.getD k 0 = (flat cols k).length
  pos : o.pos = (flat cols c).length
  ent : o.i.take o.pos = flat cols c

theorem startCol_wp {c : Nat} {o : Out} (hc : c < N) (h : Done N cols c o) :
    wp (startCol c o) (Mid N cols c []) := by
  have := h.plen
  unfold startCol
  rw [rd_getD 0 (by omega), ok_bind, wr_eq (by omega), ok_bind, wp_ok]
  refine ⟨by simpa using h.plen, h.ilen, fun k hk => ?_, ?_, by simpa using h.pos, by simpa using h.ent⟩
  · rw [getD_set, if_neg (by omega)]
    exact h.ptr k hk
  · rw [getD_set, if_pos ⟨rfl, by omega⟩]
    simpa using h.ptr c (Nat.le_refl _)

theorem push_wp {c v : Nat} {l r : List Nat} {o : Out} (hc : c < N) (hl : cols c = l ++ v :: r)
    (h : Mid N cols c l o) : wp (push c v o) (Mid N cols c (l ++ [v])) := by
  have := h.plen
  have hpos : o.pos < o.i.length := by
    rw [h.ilen, h.pos]
    have h1 := flat_length_mono (cols := cols) (show c + 1 ≤ N by omega)
    rw [flat_succ, List.length_append, hl, List.length_append, List.length_cons] at h1
    omega
  unfold push
  rw [rd_getD 0 (by omega), ok_bind, wr_eq (by omega), ok_bind, wr_eq hpos, ok_bind, wp_ok]
  refine ⟨by simpa using h.plen, by simpa using h.ilen, fun k hk => ?_, ?_, ?_, ?_⟩
  · rw [getD_set, if_neg (by omega)]
    exact h.ptr k hk
  · rw [getD_set, if_pos ⟨rfl, by omega⟩, h.next]
    simp [Nat.add_assoc]
  · dsimp only
    rw [h.pos]; simp [Nat.add_assoc]
  · dsimp only
    rw [List.take_add_one, List.take_set_of_le (Nat.le_refl _), h.ent,
      List.getElem?_set_self hpos]
    simp

theorem pushes_wp {c : Nat} {f : Nat → Nat} {L : List Nat} :
    ∀ {l r : List Nat} {o : Out}, c < N → cols c = l ++ L.map f ++ r → Mid N cols c l o →
      wp (forEach L (fun row s => push c (f row) s) o) (Mid N cols c (l ++ L.map f)) := by
  induction L with
  | nil => intro l r o _ _ h; simpa [forEach] using h
  | cons a L ih =>
    intro l r o hc hl h
    rw [forEach, wp_bind]
    refine wp_mono (push_wp hc (l := l) (r := L.map f ++ r) (by simpa using hl) h) ?_
    intro o' h'
    have := ih (l := l ++ [f a]) (r := r) (o := o') hc (by simpa using hl) h'
    simpa using this

theorem Mid.done {c : Nat} {o : Out} (h : Mid N cols c (cols c) o) : Done N cols (c + 1) o := by
  refine ⟨h.plen, h.ilen, fun k hk => ?_, ?_, ?_⟩
  · rcases Nat.eq_or_lt_of_le hk with e | e
    · rw [e, h.next, flat_succ, List.length_append]
    · exact h.ptr k (by omega)
  · rw [h.pos, flat_succ, List.length_append]
  · rw [h.ent, flat_succ]

theorem Done.eq {o : Out} (h : Done N cols N o) : (⟨N, o.p, o.i⟩ : Csc) = Csc.ofFun N cols := by
  unfold Csc.ofFun
  congr 1
  · refine List.ext_getElem ?_ ?_
    · simp [h.plen]
    · intro k h1 h2
      have := h.plen
      have h3 := h.ptr k (by omega)
      rw [List.getD_eq_getElem?_getD, List.getElem?_eq_getElem h1, Option.getD_some] at h3
      rw [h3]
      simp [flat]
  · have h1 := h.ent
    rw [List.take_of_length_le (by rw [h.pos, h.ilen])] at h1
    exact h1

end Verif.MergeG
