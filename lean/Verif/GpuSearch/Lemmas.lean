import Verif.GpuSearch.Model
import Verif.GpuSearch.Spec
import Verif.Fused.Theorems
namespace Verif.GpuSearch
open Verif.Search (binarySearchBefore chk SortedOn)
open Verif.Fused

/-- The mathematical search between two rows. -/
theorem search_between {pos : List Nat} {n m lo hi t : Nat} (h : PosArray pos n m) (hlh : lo ≤ hi) (hhn : hi ≤ n)
    (hn : n ≤ 1073741823) (hlo : ∀ v, pos[lo]? = some v → v ≤ t) :
    ∃ r, binarySearchBefore (pos.map Int.ofNat) lo hi t = some r ∧ lo ≤ r ∧ r ≤ hi ∧
      (∃ v, pos[r]? = some v ∧ v ≤ t) ∧
      (pos[r]? = some t ∨ ∀ i v, r < i → i ≤ hi → pos[i]? = some v → t < v) := by
  have hget : ∀ (i : Nat) (v : Int), (pos.map Int.ofNat)[i]? = some v → ∃ a, pos[i]? = some a ∧ v = Int.ofNat a := by
    intro i v h
    rw [List.getElem?_map, Option.map_eq_some_iff] at h
    obtain ⟨a, h1, h2⟩ := h
    exact ⟨a, h1, h2.symm⟩
  obtain ⟨r, e1, e2, e3, ⟨v, e4, e5⟩, e6⟩ := Search.binarySearchBefore_owner (pos.map Int.ofNat) lo hi t hlh
    (by rw [List.length_map, h.len]; omega) (by omega) (by
      intro i j x y _ hij _ hx hy
      obtain ⟨a, ha, rfl⟩ := hget i x hx
      obtain ⟨b, hb, rfl⟩ := hget j y hy
      exact Int.ofNat_le.2 (h.mono i j a b (by omega) ha hb)) (by
      intro v hv
      obtain ⟨a, ha, rfl⟩ := hget lo v hv
      exact Int.ofNat_le.2 (hlo a ha))
  obtain ⟨a, ha, rfl⟩ := hget r v e4
  refine ⟨r, e1, e2, e3, ⟨a, ha, Int.ofNat_le.1 e5⟩, ?_⟩
  rcases e6 with e6 | e6
  · obtain ⟨a', ha', hta⟩ := hget r _ e6
    have h2 : (t : Int) = (a' : Int) := hta
    exact Or.inl (by rw [ha']; congr 1; omega)
  · exact Or.inr (fun i v h1 h2 h3 =>
      Int.ofNat_lt.1 (e6 i (Int.ofNat v) h1 h2 (by rw [List.getElem?_map, h3]; rfl)))

theorem search_all {pos : List Nat} {n m t : Nat} (h : PosArray pos n m) (hn : n ≤ 1073741823) :
    ∃ r, binarySearchBefore (pos.map Int.ofNat) 0 n t = some r ∧ RowOf pos n t r := by
  obtain ⟨r, e1, _, e3, e4, e5⟩ := search_between (t := t) h (Nat.zero_le n) (Nat.le_refl _) hn (by
    intro v hv; rw [h.zero] at hv; rw [← Option.some.inj hv]; exact Nat.zero_le _)
  exact ⟨r, e1, e3, e4, e5⟩

/-- The search of a thread between the rows of its block and of the next one finds what a search of all
rows may find. -/
theorem search_block {pos : List Nat} {n m t tb tb' s e : Nat} (h : PosArray pos n m) (hn : n ≤ 1073741823)
    (hs : binarySearchBefore (pos.map Int.ofNat) 0 n tb = some s)
    (he : binarySearchBefore (pos.map Int.ofNat) 0 n tb' = some e) (h1 : tb ≤ t) (h2 : t ≤ tb') :
    ∃ r, binarySearchBefore (pos.map Int.ofNat) s e t = some r ∧ RowOf pos n t r ∧ s ≤ r ∧ r ≤ e := by
  obtain ⟨s', hs1, hs2, ⟨vs, hs3, hs4⟩, hs5⟩ := search_all (t := tb) h hn
  obtain ⟨e', he1, he2, ⟨ve, he3, he4⟩, he5⟩ := search_all (t := tb') h hn
  rw [hs] at hs1
  have hs1 := Option.some.inj hs1
  subst hs1
  rw [he] at he1
  have he1 := Option.some.inj he1
  subst he1
  have hse : s ≤ e := by
    rcases Nat.lt_or_ge e s with hlt | hge
    · rcases Nat.eq_or_lt_of_le (Nat.le_trans h1 h2) with heq | hlt2
      · subst heq
        rw [hs] at he
        have := Option.some.inj he
        omega
      · exfalso
        have hm := h.mono e s ve vs (by omega) he3 hs3
        rcases he5 with h5 | h5
        · rw [he3] at h5
          have := Option.some.inj h5
          omega
        · have := h5 s vs hlt hs2 hs3
          omega
    · exact hge
  obtain ⟨r, e1, e2, e3, e4, e5⟩ := search_between (t := t) h hse he2 hn (by
    intro v hv; rw [hs3] at hv; have := Option.some.inj hv; omega)
  refine ⟨r, e1, ⟨by omega, e4, ?_⟩, e2, e3⟩
  rcases e5 with e5 | e5
  · exact Or.inl e5
  · rcases Nat.lt_or_ge r e with hlt | hge
    · refine Or.inr (fun i v g1 g2 g3 => ?_)
      rcases Nat.le_total i e with g | g
      · exact e5 i v g1 g g3
      · have a1 := e5 e ve hlt (Nat.le_refl _) he3
        have a2 := h.mono e i ve v g he3 g3
        omega
    · have hre : r = e := by omega
      subst hre
      rcases he5 with h5 | h5
      · obtain ⟨v, g1, g2⟩ := e4
        rw [h5] at g1
        have g1 := Option.some.inj g1
        have : t = tb' := by omega
        subst this
        exact Or.inl h5
      · exact Or.inr (fun i v g1 g2 g3 => by have := h5 i v g1 g2 g3; omega)

/-! ### launches -/

theorem mem_grid {k bs : Nat} {x : Nat × Nat} : x ∈ grid k bs ↔ x.1 < k ∧ x.2 < bs := by
  unfold grid
  rw [List.mem_flatMap]
  constructor
  · rintro ⟨b, hb, hx⟩
    rw [List.mem_map] at hx
    obtain ⟨t, ht, rfl⟩ := hx
    exact ⟨List.mem_range.1 hb, List.mem_range.1 ht⟩
  · rintro ⟨h1, h2⟩
    exact ⟨x.1, List.mem_range.2 h1, List.mem_map.2 ⟨x.2, List.mem_range.2 h2, rfl⟩⟩

theorem searchBlocks_some {nb bs k : Nat} (h : searchBlocks nb bs = some k) : 0 < bs ∧ nb + 1 ≤ k * bs ∧ k * bs < 2147483648 := by
  unfold searchBlocks at h
  by_cases hb : bs = 0
  · rw [if_pos hb] at h; exact nomatch h
  · rw [if_neg hb] at h
    have hbp : 0 < bs := by omega
    unfold chk at h
    by_cases hc : nb + 1 + bs < 2147483648
    · rw [if_pos hc] at h
      have h := Option.some.inj h
      subst h
      have h1 : (nb + 1 + bs - 1) / bs * bs ≤ nb + 1 + bs - 1 := Nat.div_mul_le_self _ _
      have h2 : nb + 1 + bs - 1 < ((nb + 1 + bs - 1) / bs + 1) * bs := Nat.lt_mul_of_div_lt (by omega) hbp
      rw [Nat.succ_mul] at h2
      omega
    · rw [if_neg hc] at h; exact nomatch h

/-- The threads of a launch, in any order, fill the array of results. -/
theorem runThreads_fill {pos : List Nat} {n m : Nat} (h : PosArray pos n m) (hn : n ≤ 1073741823) {target : Nat → Option Nat}
    {nb bs : Nat} (ht : ∀ i, i ≤ nb → ∃ t, target i = some t) :
    ∀ (ths : List (Nat × Nat)) (res : List Nat), res.length = nb + 1 →
      (∀ x ∈ ths, x.1 * bs + x.2 < 2147483648) →
      ∃ res', runThreads (pos.map Int.ofNat) n target nb bs ths res = some res' ∧ res'.length = nb + 1 ∧
        ∀ i, i ≤ nb → ((∃ x ∈ ths, x.1 * bs + x.2 = i) ∨ ∃ t r, target i = some t ∧
            binarySearchBefore (pos.map Int.ofNat) 0 n t = some r ∧ res[i]? = some r) →
          ∃ t r, target i = some t ∧ binarySearchBefore (pos.map Int.ofNat) 0 n t = some r ∧ res'[i]? = some r := by
  intro ths
  induction ths with
  | nil =>
    intro res hlen _
    refine ⟨res, rfl, hlen, ?_⟩
    rintro i _ (⟨x, hx, _⟩ | hi)
    · exact nomatch hx
    · exact hi
  | cons th ths ih =>
    intro res hlen hsz
    have hc : chk (th.1 * bs + th.2) = some (th.1 * bs + th.2) := by
      unfold chk; rw [if_pos (hsz th List.mem_cons_self)]
    unfold runThreads threadStep
    rw [hc]
    simp only
    by_cases hi : nb + 1 ≤ th.1 * bs + th.2
    · rw [if_pos hi]
      simp only
      obtain ⟨res', e1, e2, e3⟩ := ih res hlen (fun x hx => hsz x (List.mem_cons_of_mem _ hx))
      refine ⟨res', e1, e2, fun i hin hor => e3 i hin ?_⟩
      rcases hor with ⟨x, hx, hxi⟩ | hor
      · rcases List.mem_cons.1 hx with rfl | hx
        · omega
        · exact Or.inl ⟨x, hx, hxi⟩
      · exact Or.inr hor
    · rw [if_neg hi]
      obtain ⟨t, htt⟩ := ht (th.1 * bs + th.2) (by omega)
      obtain ⟨r, hr, _⟩ := search_all (t := t) h hn
      rw [htt]
      simp only
      rw [hr]
      simp only
      rw [if_pos (by omega)]
      simp only
      obtain ⟨res', e1, e2, e3⟩ := ih (res.set (th.1 * bs + th.2) r) (by rw [List.length_set]; exact hlen)
        (fun x hx => hsz x (List.mem_cons_of_mem _ hx))
      refine ⟨res', e1, e2, fun i hin hor => e3 i hin ?_⟩
      by_cases hii : th.1 * bs + th.2 = i
      · subst hii
        exact Or.inr ⟨t, r, htt, hr, List.getElem?_set_self (by omega)⟩
      · rcases hor with ⟨x, hx, hxi⟩ | ⟨t', r', g1, g2, g3⟩
        · rcases List.mem_cons.1 hx with rfl | hx
          · exact (hii hxi).elim
          · exact Or.inl ⟨x, hx, hxi⟩
        · exact Or.inr ⟨t', r', g1, g2, by rw [List.getElem?_set_ne hii]; exact g3⟩

/-- One search launch: whatever the order of the threads and the old contents of the results, entry `i` is
the row found for the target of block `i`. -/
theorem launch_fill {pos : List Nat} {n m : Nat} (h : PosArray pos n m) (hn : n ≤ 1073741823) {target : Nat → Option Nat}
    {nb bs k : Nat} (hk : searchBlocks nb bs = some k) (ht : ∀ i, i ≤ nb → ∃ t, target i = some t)
    {o : List (Nat × Nat)} (ho : o.Perm (grid k bs)) {j : List Nat} (hj : j.length = nb + 1) :
    ∃ res, runThreads (pos.map Int.ofNat) n target nb bs o j = some res ∧ res.length = nb + 1 ∧
      ∀ i, i ≤ nb → ∃ t r, target i = some t ∧ binarySearchBefore (pos.map Int.ofNat) 0 n t = some r ∧ res[i]? = some r := by
  obtain ⟨hb, hcov, hsz⟩ := searchBlocks_some hk
  obtain ⟨res, e1, e2, e3⟩ := runThreads_fill h hn ht o j hj (by
    intro x hx
    obtain ⟨h1, h2⟩ := mem_grid.1 (ho.mem_iff.1 hx)
    obtain ⟨b, t⟩ := x
    have h1 : b < k := h1
    have h2 : t < bs := h2
    have : (b + 1) * bs ≤ k * bs := Nat.mul_le_mul_right _ h1
    rw [Nat.add_mul, Nat.one_mul] at this
    show b * bs + t < 2147483648
    omega)
  refine ⟨res, e1, e2, fun i hi => e3 i hi (Or.inl ⟨(i / bs, i % bs), ho.mem_iff.2 (mem_grid.2 ⟨?_, Nat.mod_lt _ hb⟩), ?_⟩)⟩
  · exact Nat.div_lt_of_lt_mul (by rw [Nat.mul_comm]; omega)
  · show i / bs * bs + i % bs = i
    rw [Nat.mul_comm]
    exact Nat.div_add_mod i bs

end Verif.GpuSearch
