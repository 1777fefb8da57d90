import Verif.Fused.Lemmas
/-!
Property C54: loops over fused positions.
-/
namespace Verif.Fused
open Verif.Merge (Lvl)
open Verif.Pack
open Verif.Provenance

theorem setup {dims : List Nat} {lv : List Lvl} {m : Nat} (hl : dims.length = lv.length)
    (hw : IndexWF 1 (dims.zip lv) m) (hf : Fusable lv) (hne : NoEmptyBelow lv) :
    ∃ ch crd ns out, chain lv = some (ch, crd) ∧ getSize lv = some m ∧ parentSizes lv = some ns ∧
      unfused lv = some out ∧ out.length = m ∧ ChainOK ch ns m ∧
      ∀ k (h : k < out.length), ∃ st c, Valid ch k st ∧ crd[k]? = some c ∧ out[k] = ((st.map Prod.snd).reverse ++ [c], k) := by
  obtain ⟨hs, out, ho, hv⟩ := getSize_counts dims lv (List.range m) hl (by rw [List.length_range]; exact hw)
  rw [List.length_range] at hs
  have hlen : out.length = m := by
    have := congrArg List.length hv
    simpa using this
  have hpath := walk_path ho
  have hsnd : ∀ k (h : k < out.length), out[k].2 = k := by
    intro k h
    have h1 : (out.map Prod.snd)[k]? = (List.range m)[k]? := by rw [hv]
    rw [List.getElem?_map, List.getElem?_eq_getElem h, List.getElem?_range (by omega)] at h1
    exact Option.some.inj h1
  have hu : unfused lv = some out := by unfold unfused; rw [hs]; exact ho
  cases lv with
  | nil => exact hf.elim
  | cons l ls =>
    cases dims with
    | nil => simp at hl
    | cons d dims =>
      cases ls with
      | nil => exact hf.elim
      | cons l2 ls =>
        have hcomp : ∀ x ∈ l2 :: ls, ∃ pos crd, x = Lvl.comp pos crd := hf
        cases l with
        | dense n =>
          obtain ⟨w1, w2⟩ := hw
          subst w1
          have hne1 : NoEmptyBelow (l2 :: ls) := hne
          obtain ⟨ch, crd, sz, e1, e2, e3, e4, e5⟩ := chainFrom_ok dims (l2 :: ls) none [] [] (1 * n) m (by simpa using hl) w2 hcomp
            (fun h => by cases h) (fun _ h => by cases h) (fun _ => rfl) trivial (fun h => by cases h) hne1
          refine ⟨ch, crd, ((1 * n :: sz).reverse ++ []).tail, out, e1, hs, ?_, hu, hlen, e4, ?_⟩
          · unfold parentSizes sizesFrom; rw [e2, List.append_nil]; rfl
          · intro k hk
            have hp := hpath _ (List.getElem_mem hk)
            rw [hsnd k hk] at hp
            obtain ⟨c, cs, h1, h2, h3⟩ := hp
            obtain ⟨st', c', g1, g2, g3⟩ := e5 (0 * n + c) [] c cs k rfl (by unfold curAt coordAt; simp) h3
            refine ⟨st', c', g1, g2, ?_⟩
            rw [← g3, show (([] : St).map Prod.snd).reverse ++ c :: cs = c :: cs from rfl, ← h1]
            exact Prod.ext rfl (hsnd k hk)
        | comp pos crd0 =>
          obtain ⟨w1, w2, w3, w4, w5, w6, w7⟩ := hw
          have hne1 : NoEmptyBelow (.comp [] [] :: l2 :: ls) ∧ NoEmptyBelow (l2 :: ls) := by
            obtain ⟨pos', crd', rfl⟩ := hcomp l2 List.mem_cons_self
            exact ⟨hne, hne.2⟩
          obtain ⟨ch, crd, sz, e1, e2, e3, e4, e5⟩ := chainFrom_ok dims (l2 :: ls) (some crd0) [] [] crd0.length m (by simpa using hl) w7 hcomp
            (fun h => by cases h) (fun c h => by rw [← Option.some.inj h]) (fun _ => rfl) trivial (fun _ => hne1.1) hne1.2
          refine ⟨ch, crd, ((crd0.length :: sz).reverse ++ []).tail, out, e1, hs, ?_, hu, hlen, e4, ?_⟩
          · unfold parentSizes sizesFrom; rw [w3, List.append_nil]; simp only; rw [e2]; rfl
          · intro k hk
            have hp := hpath _ (List.getElem_mem hk)
            rw [hsnd k hk] at hp
            obtain ⟨q, c, cs, h1, h2, h3, h4⟩ := hp
            obtain ⟨st', c', g1, g2, g3⟩ := e5 q [] c cs k rfl h3 h4
            refine ⟨st', c', g1, g2, ?_⟩
            rw [← g3, show (([] : St).map Prod.snd).reverse ++ c :: cs = c :: cs from rfl, ← h1]
            exact Prod.ext rfl (hsnd k hk)

/-! ### serial loops -/

def Z (l : Link) : Prop :=
  match l.crd with
  | none => ∀ a, l.pos[1]? = some a → 0 < a
  | some crd => ∀ c, crd[0]? = some c → c = 0

theorem chainFrom_zero : ∀ (ls : List Lvl) (crd : List Nat) (acc ch : List Link) (c : List Nat),
    StartsAtZero (.comp [] crd :: ls) → (∀ l ∈ acc, Z l) → chainFrom (some crd) acc ls = some (ch, c) → ∀ l ∈ ch, Z l := by
  intro ls
  induction ls with
  | nil =>
    intro crd acc ch c _ hacc h
    have h : some (acc, crd) = some (ch, c) := h
    rw [← (Prod.mk.inj (Option.some.inj h)).1]
    exact hacc
  | cons l ls ih =>
    intro crd acc ch c hz hacc h
    cases l with
    | dense n => cases h
    | comp pos crd' =>
      have h : chainFrom (some crd') (⟨some crd, pos⟩ :: acc) ls = some (ch, c) := h
      refine ih crd' _ ch c ?_ ?_ h
      · have := hz.2
        cases ls with
        | nil => trivial
        | cons _ _ => exact this
      · intro l hl
        rcases List.mem_cons.1 hl with rfl | hl
        · exact hz.1
        · exact hacc l hl

theorem valid_zero : ∀ {ls : List Link} {ns : List Nat} {m : Nat}, ChainOK ls ns m → 0 < m → (∀ l ∈ ls, Z l) →
    Valid ls 0 (serialStart ls)
  | [], _, _, _, _, _ => rfl
  | _ :: _, [], _, hc, _, _ => hc.elim
  | l :: ls, n :: ns, m, hc, hm, hz => by
    obtain ⟨hl, _, hcs⟩ := hc
    have hn : 0 < n := by
      rcases Nat.eq_zero_or_pos n with h | h
      · subst h
        have := hl.last
        rw [hl.zero] at this
        have := Option.some.inj this
        omega
      · exact h
    obtain ⟨b, hb⟩ := pos_get hl (show 0 + 1 ≤ n by omega)
    have hZ := hz l List.mem_cons_self
    unfold Z at hZ
    refine ⟨⟨0, b, hl.zero, hb, Nat.le_refl _, ?_⟩, ?_, valid_zero hcs hn (fun x hx => hz x (List.mem_cons_of_mem _ hx))⟩
    · cases hcr : l.crd with
      | none => rw [hcr] at hZ; exact hZ b hb
      | some crd => exact hl.full (by rw [hcr]; rfl) 0 0 b hl.zero hb
    · obtain ⟨c, hc⟩ := coordAt_some hl hn
      show coordAt l 0 = some 0
      rw [hc]
      unfold coordAt at hc
      cases hcr : l.crd with
      | none => rw [hcr] at hc; rw [← Option.some.inj hc]
      | some crd => rw [hcr] at hc hZ; rw [hZ c hc]

/-- C54. A serial loop over the positions of the last level visits exactly what the loops over the
levels visit, in the same order and with the coordinates of all levels, for any well-formed tensor
whose compressed levels above the last have no empty segments and start at coordinate zero. -/
theorem fused_serial_partial {dims : List Nat} {lv : List Lvl} {m : Nat} (hl : dims.length = lv.length)
    (hw : IndexWF 1 (dims.zip lv) m) (hf : Fusable lv) (hne : NoEmptyBelow lv) (hz : StartsAtZero lv) :
    ∃ out, unfused lv = some out ∧ serial lv = some out := by
  obtain ⟨ch, crd, ns, out, h1, h2, _, h4, h5, h6, h7⟩ := setup hl hw hf hne
  refine ⟨out, h4, ?_⟩
  unfold serial
  rw [h1, h2]
  simp only
  have hr : loopRange (0, m) = List.range' 0 m := by
    unfold loopRange; simp [List.range_eq_range']
  rw [hr, loop_events h6 h5 (fun k h => h7 k (by omega)) m 0 _ (by omega) ?_]
  · rw [List.drop_zero, List.take_of_length_le (by omega)]
  · intro hm
    cases lv with
    | nil => exact hf.elim
    | cons l ls =>
      cases ls with
      | nil => exact hf.elim
      | cons l2 ls =>
        obtain ⟨pos, crd2, rfl⟩ := hf l2 List.mem_cons_self
        cases l with
        | comp pos0 crd0 =>
          have hv := valid_zero h6 hm (chainFrom_zero (.comp pos crd2 :: ls) crd0 [] ch crd hz (by simp) h1)
          exact ⟨_, track_valid h6 hv, hv⟩
        | dense n =>
          have h1 : chainFrom (some crd2) [⟨none, pos⟩] ls = some (ch, crd) := h1
          cases ls with
          | nil =>
            have h1 : some ([⟨none, pos⟩], crd2) = some (ch, crd) := h1
            have hch := (Prod.mk.inj (Option.some.inj h1)).1
            subst hch
            cases ns with
            | nil => exact h6.elim
            | cons n' ns =>
              refine track_dense h6.1 rfl hm (Nat.zero_le _) rfl ?_ (fun _ _ _ _ => Nat.zero_le _)
              intro a ha; rw [h6.1.zero] at ha; rw [← Option.some.inj ha]; exact Nat.le_refl _
          | cons l3 ls =>
            have hv := valid_zero h6 hm (chainFrom_zero (l3 :: ls) crd2 _ ch crd hz.2 (by
              intro l hl
              rw [List.mem_singleton] at hl
              subst hl
              exact hz.1) h1)
            exact ⟨_, track_valid h6 hv, hv⟩

/-- C54. For a matrix in CSR, or any tensor with a dense and a compressed level, nothing else is needed:
also with any runs of empty rows. -/
theorem fused_serial_csr {d n m k : Nat} {pos crd : List Nat} (hw : IndexWF 1 [(d, .dense n), (k, .comp pos crd)] m) :
    ∃ out, unfused [.dense n, .comp pos crd] = some out ∧ serial [.dense n, .comp pos crd] = some out :=
  fused_serial_partial (dims := [d, k]) rfl hw
    (fun x hx => by rw [List.mem_singleton] at hx; exact ⟨pos, crd, hx⟩) trivial trivial

/-! ### chunks -/

theorem searchStart_valid : ∀ {ls : List Link} {ns : List Nat} {m t : Nat}, ChainOK ls ns m → t < m →
    (∀ l ∈ ls, NoEmpty l.pos) → (∀ n ∈ ns, n ≤ 1073741823) → ∃ st, searchStart ls ns t = some st ∧ Valid ls t st
  | [], _, _, _, _, _, _, _ => ⟨[], rfl, rfl⟩
  | _ :: _, [], _, _, hc, _, _, _ => hc.elim
  | l :: ls, n :: ns, m, t, hc, ht, hne, hb => by
    obtain ⟨hl, _, hcs⟩ := hc
    have hget : ∀ (i : Nat) (v : Int), (l.pos.map Int.ofNat)[i]? = some v → ∃ a, l.pos[i]? = some a ∧ v = Int.ofNat a := by
      intro i v h
      rw [List.getElem?_map, Option.map_eq_some_iff] at h
      obtain ⟨a, h1, h2⟩ := h
      exact ⟨a, h1, h2.symm⟩
    obtain ⟨r, e1, _, e3, ⟨v, e4, e5⟩, e6⟩ := Search.binarySearchBefore_owner (l.pos.map Int.ofNat) 0 n t (Nat.zero_le _)
      (by rw [List.length_map, hl.len]; omega) (hb n List.mem_cons_self) (by
        intro i j x y _ hij _ hx hy
        obtain ⟨a, ha, rfl⟩ := hget i x hx
        obtain ⟨b, hb, rfl⟩ := hget j y hy
        have := hl.mono i j a b (by omega) ha hb
        exact Int.ofNat_le.2 this) (by
        intro v hv
        obtain ⟨a, ha, rfl⟩ := hget 0 v hv
        rw [hl.zero] at ha
        rw [← Option.some.inj ha]
        exact Int.natCast_nonneg _)
    obtain ⟨a, ha, rfl⟩ := hget r v e4
    have hat : a ≤ t := Int.ofNat_le.1 e5
    have hrn : r < n := by
      rcases Nat.lt_or_ge r n with h | h
      · exact h
      · have : r = n := by omega
        subst this
        rw [hl.last] at ha
        have := Option.some.inj ha
        omega
    obtain ⟨b, hb'⟩ := pos_get hl (show r + 1 ≤ n by omega)
    have htb : t < b := by
      rcases e6 with e6 | e6
      · obtain ⟨a', ha', hta⟩ := hget r _ e6
        rw [ha] at ha'
        have h1 := Option.some.inj ha'
        have h2 : (t : Int) = (a' : Int) := hta
        have := hne l List.mem_cons_self r a b ha hb'
        omega
      · have := e6 (r + 1) (Int.ofNat b) (by omega) (by omega) (by rw [List.getElem?_map, hb']; rfl)
        exact Int.ofNat_lt.1 this
    obtain ⟨c, hc⟩ := coordAt_some hl hrn
    obtain ⟨st, hst, hv⟩ := searchStart_valid hcs hrn (fun x hx => hne x (List.mem_cons_of_mem _ hx))
      (fun x hx => hb x (List.mem_cons_of_mem _ hx))
    refine ⟨(r, c) :: st, ?_, ⟨a, b, ha, hb', hat, htb⟩, hc, hv⟩
    unfold searchStart
    rw [e1]
    simp only
    rw [hc, hst]

theorem searchStart_dense {l : Link} {n m t : Nat} (hl : LinkOK l n m) (hd : l.crd = none) (ht : t < m) (hb : n ≤ 1073741823) :
    ∃ st, searchStart [l] [n] t = some st ∧ ∃ st', track [l] t st = some st' ∧ Valid [l] t st' := by
  have hget : ∀ (i : Nat) (v : Int), (l.pos.map Int.ofNat)[i]? = some v → ∃ a, l.pos[i]? = some a ∧ v = Int.ofNat a := by
    intro i v h
    rw [List.getElem?_map, Option.map_eq_some_iff] at h
    obtain ⟨a, h1, h2⟩ := h
    exact ⟨a, h1, h2.symm⟩
  obtain ⟨r, e1, _, e3, ⟨v, e4, e5⟩, e6⟩ := Search.binarySearchBefore_owner (l.pos.map Int.ofNat) 0 n t (Nat.zero_le _)
    (by rw [List.length_map, hl.len]; omega) hb (by
      intro i j x y _ hij _ hx hy
      obtain ⟨a, ha, rfl⟩ := hget i x hx
      obtain ⟨b, hb, rfl⟩ := hget j y hy
      have := hl.mono i j a b (by omega) ha hb
      exact Int.ofNat_le.2 this) (by
      intro v hv
      obtain ⟨a, ha, rfl⟩ := hget 0 v hv
      rw [hl.zero] at ha
      rw [← Option.some.inj ha]
      exact Int.natCast_nonneg _)
  obtain ⟨a, ha, rfl⟩ := hget r v e4
  have hat : a ≤ t := Int.ofNat_le.1 e5
  have hco : coordAt l r = some r := by unfold coordAt; rw [hd]
  refine ⟨[(r, r)], ?_, ?_⟩
  · unfold searchStart
    rw [e1]
    simp only
    rw [hco]
    rfl
  · refine track_dense hl hd ht e3 rfl ?_ ?_
    · intro x hx; rw [ha] at hx; rw [← Option.some.inj hx]; exact hat
    · intro q x hq hx
      rcases e6 with e6 | e6
      · obtain ⟨a', ha', hta⟩ := hget r _ e6
        rw [ha] at ha'
        have h1 := Option.some.inj ha'
        have h2 : (t : Int) = (a' : Int) := hta
        have := hl.mono r q a x (by omega) ha hx
        omega
      · have hqn : q ≤ n := by
          have := (List.getElem?_eq_some_iff.1 hx).1
          have := hl.len
          omega
        have := e6 q (Int.ofNat x) hq hqn (by rw [List.getElem?_map, hx]; rfl)
        have := Int.ofNat_lt.1 this
        omega

theorem chainFrom_full : ∀ (ls : List Lvl) (crd : List Nat) (acc ch : List Link) (c : List Nat),
    NoEmptyBelow (.comp [] crd :: ls) → (∀ l ∈ acc, NoEmpty l.pos) → chainFrom (some crd) acc ls = some (ch, c) →
    ∀ l ∈ ch, NoEmpty l.pos := by
  intro ls
  induction ls with
  | nil =>
    intro crd acc ch c _ hacc h
    have h : some (acc, crd) = some (ch, c) := h
    rw [← (Prod.mk.inj (Option.some.inj h)).1]
    exact hacc
  | cons l ls ih =>
    intro crd acc ch c hz hacc h
    cases l with
    | dense n => cases h
    | comp pos crd' =>
      have h : chainFrom (some crd') (⟨some crd, pos⟩ :: acc) ls = some (ch, c) := h
      refine ih crd' _ ch c ?_ ?_ h
      · have := hz.2
        cases ls with
        | nil => trivial
        | cons x xs => cases x <;> exact this
      · intro l hl
        rcases List.mem_cons.1 hl with rfl | hl
        · exact hz.1
        · exact hacc l hl

theorem filter_guard (m : Nat) : ∀ (len start : Nat), start ≤ m →
    (List.range' start len).filter (fun k => !posGuardSkips (0, m) k) = List.range' start (min len (m - start)) := by
  intro len
  induction len with
  | zero => intro start _; simp
  | succ len ih =>
    intro start h
    rw [List.range'_succ, List.filter_cons]
    rcases Nat.lt_or_ge start m with hlt | hge
    · have : (!posGuardSkips (0, m) start) = true := by simp [posGuardSkips]; omega
      rw [if_pos this, ih (start + 1) (by omega)]
      have : min (len + 1) (m - start) = min len (m - (start + 1)) + 1 := by omega
      rw [this, List.range'_succ]
    · have hs : start = m := by omega
      subst hs
      have : min (len + 1) (start - start) = 0 := by omega
      rw [this, if_neg (by simp [posGuardSkips])]
      rw [List.filter_eq_nil_iff.2]
      · rfl
      · intro x hx
        rw [List.mem_range'_1] at hx
        simp [posGuardSkips]; omega

/-- C54. A chunk of a parallel loop that starts at a stored position visits the components of the chunk,
whatever the other chunks do: after the search the coordinates of all levels are right. With three or
more levels no row of a dense first level may be empty. -/
theorem fused_chunk_partial {dims : List Nat} {lv : List Lvl} {m : Nat} (hl : dims.length = lv.length)
    (hw : IndexWF 1 (dims.zip lv) m) (hf : Fusable lv) (hne : NoEmptyBelow lv) (hz : RowsFilled lv)
    (hb : ∀ ns, parentSizes lv = some ns → ∀ n ∈ ns, n ≤ 1073741823) {start len : Nat} (hs : start < m) :
    ∃ out, unfused lv = some out ∧ chunk lv start len = some ((out.drop start).take len) := by
  obtain ⟨ch, crd, ns, out, h1, h2, h3, h4, h5, h6, h7⟩ := setup hl hw hf hne
  refine ⟨out, h4, ?_⟩
  have hstart : ∃ st, searchStart ch ns start = some st ∧ ∃ st', track ch start st = some st' ∧ Valid ch start st' := by
    have hfull : (∀ l ∈ ch, NoEmpty l.pos) → ∃ st, searchStart ch ns start = some st ∧
        ∃ st', track ch start st = some st' ∧ Valid ch start st' := by
      intro hfl
      obtain ⟨st, e1, e2⟩ := searchStart_valid h6 hs hfl (hb ns h3)
      exact ⟨st, e1, st, track_valid h6 e2, e2⟩
    cases lv with
    | nil => exact hf.elim
    | cons l ls =>
      cases ls with
      | nil => exact hf.elim
      | cons l2 ls =>
        obtain ⟨pos, crd2, rfl⟩ := hf l2 List.mem_cons_self
        cases l with
        | comp pos0 crd0 => exact hfull (chainFrom_full (.comp pos crd2 :: ls) crd0 [] ch crd hne (by simp) h1)
        | dense n =>
          have h1 : chainFrom (some crd2) [⟨none, pos⟩] ls = some (ch, crd) := h1
          cases ls with
          | nil =>
            have h1 : some ([⟨none, pos⟩], crd2) = some (ch, crd) := h1
            have hch := (Prod.mk.inj (Option.some.inj h1)).1
            subst hch
            cases ns with
            | nil => exact h6.elim
            | cons n' ns =>
              cases ns with
              | cons _ _ => exact h6.2.2.elim
              | nil => exact searchStart_dense h6.1 rfl hs (hb _ h3 n' List.mem_cons_self)
          | cons l3 ls =>
            refine hfull (chainFrom_full (l3 :: ls) crd2 _ ch crd ?_ ?_ h1)
            · obtain ⟨pos3, crd3, rfl⟩ := hf l3 (by simp)
              exact hne
            · intro l hl
              rw [List.mem_singleton] at hl
              subst hl
              exact hz
  obtain ⟨st, e1, e2⟩ := hstart
  unfold chunk
  rw [h1, h2, h3]
  simp only
  rw [e1]
  simp only
  rw [filter_guard m len start (by omega),
    loop_events h6 h5 (fun k h => h7 k (by omega)) _ start st (by omega) (fun _ => e2)]
  congr 1
  rcases Nat.le_total len (m - start) with h | h
  · rw [Nat.min_eq_left h]
  · rw [Nat.min_eq_right h, List.take_of_length_le (by simp; omega), List.take_of_length_le (by simp; omega)]

theorem chunks_flatMap {α : Type} (out : List α) (s : Nat) : ∀ N, (List.range N).flatMap (fun c => (out.drop (c * s)).take s) =
    out.take (N * s) := by
  intro N
  induction N with
  | zero => simp
  | succ N ih => rw [List.range_succ, List.flatMap_append, ih, List.flatMap_singleton, Nat.succ_mul, List.take_add]

/-- C54. A parallel loop over the chunks of a split position loop: together the chunks visit what the
loops over the levels visit, each component in one chunk. -/
theorem fused_split_partial {dims : List Nat} {lv : List Lvl} {m : Nat} (hl : dims.length = lv.length)
    (hw : IndexWF 1 (dims.zip lv) m) (hf : Fusable lv) (hne : NoEmptyBelow lv) (hz : RowsFilled lv)
    (hb : ∀ ns, parentSizes lv = some ns → ∀ n ∈ ns, n ≤ 1073741823) {s : Nat} (hs : 0 < s) :
    ∃ out, unfused lv = some out ∧ splitChunks lv s = some out := by
  obtain ⟨ch, crd, ns, out, h1, h2, h3, h4, h5, h6, h7⟩ := setup hl hw hf hne
  refine ⟨out, h4, ?_⟩
  unfold splitChunks
  rw [h2]
  simp only
  have hN : loopRange (splitOuterBounds (0, m) s) = List.range ((m + (s - 1)) / s) := by
    unfold loopRange splitOuterBounds; simp
  rw [hN]
  have hlt : ∀ c, c < (m + (s - 1)) / s → c * s < m := by
    intro c hc
    have : (c + 1) * s ≤ m + (s - 1) := (Nat.le_div_iff_mul_le hs).1 hc
    rw [Nat.succ_mul] at this
    omega
  rw [forAll_eq (g := fun c => (out.drop (c * s)).take s)]
  · rw [chunks_flatMap, List.take_of_length_le]
    have : m + (s - 1) < ((m + (s - 1)) / s + 1) * s := Nat.lt_mul_of_div_lt (by omega) hs
    rw [Nat.succ_mul] at this
    omega
  · intro c hc
    rw [List.mem_range] at hc
    obtain ⟨out', g1, g2⟩ := fused_chunk_partial hl hw hf hne hz hb (start := splitRecover s c 0) (len := s)
      (by unfold splitRecover; have := hlt c hc; omega)
    rw [h4] at g1
    have := Option.some.inj g1
    subst this
    rw [g2]
    rfl

/-! ### cases -/

/-- A matrix in CSR with empty rows at the start, in the middle and at the end. -/
def exCSR : List Lvl := [.dense 6, .comp [0, 0, 2, 2, 2, 3, 3] [1, 3, 0]]

example : IndexWF 1 ([6, 4].zip exCSR) 3 ∧ serial exCSR = some [([1, 1], 0), ([1, 3], 1), ([4, 0], 2)] ∧
    splitChunks exCSR 2 = some [([1, 1], 0), ([1, 3], 1), ([4, 0], 2)] := by
  refine ⟨⟨rfl, rfl, rfl, rfl, by decide, ?_, by decide, rfl⟩, by decide +kernel, by decide +kernel⟩
  intro p a b ha hb
  have hp : p < 6 := by have := (List.getElem?_eq_some_iff.1 hb).1; simp at this; omega
  have : p = 0 ∨ p = 1 ∨ p = 2 ∨ p = 3 ∨ p = 4 ∨ p = 5 := by omega
  rcases this with rfl | rfl | rfl | rfl | rfl | rfl <;> simp at ha hb <;> subst ha <;> subst hb <;> decide

/-- A tensor of three compressed levels. -/
def exCSF : List Lvl := [.comp [0, 2] [0, 2], .comp [0, 2, 3] [0, 3, 1], .comp [0, 1, 3, 4] [5, 0, 2, 7]]

example : Fusable exCSF ∧ NoEmptyBelow exCSF ∧ StartsAtZero exCSF ∧ RowsFilled exCSF ∧
    serial exCSF = some [([0, 0, 5], 0), ([0, 3, 0], 1), ([0, 3, 2], 2), ([2, 1, 7], 3)] ∧
    splitChunks exCSF 3 = some [([0, 0, 5], 0), ([0, 3, 0], 1), ([0, 3, 2], 2), ([2, 1, 7], 3)] := by
  refine ⟨?_, ⟨?_, ?_, trivial⟩, ⟨?_, ?_, trivial⟩, trivial, by decide +kernel, by decide +kernel⟩
  · intro x hx
    simp at hx
    rcases hx with rfl | rfl <;> exact ⟨_, _, rfl⟩
  · intro p a b ha hb
    have hp : p < 2 := by have := (List.getElem?_eq_some_iff.1 hb).1; simp at this; omega
    have : p = 0 ∨ p = 1 := by omega
    rcases this with rfl | rfl <;> simp at ha hb <;> omega
  · intro p a b ha hb
    have hp : p < 3 := by have := (List.getElem?_eq_some_iff.1 hb).1; simp at this; omega
    have : p = 0 ∨ p = 1 ∨ p = 2 := by omega
    rcases this with rfl | rfl | rfl <;> simp at ha hb <;> omega
  · intro c hc; simp at hc; exact hc.symm
  · intro c hc; simp at hc; exact hc.symm

/-- C54 is false for serial loops when the first stored row is not row 0 of a compressed level: until
the second row the coordinate is 0. -/
theorem fused_first_coordinate_fails :
    unfused [.comp [0, 2] [1, 2], .comp [0, 2, 3] [0, 1, 2]] = some [([1, 0], 0), ([1, 1], 1), ([2, 2], 2)] ∧
    serial [.comp [0, 2] [1, 2], .comp [0, 2, 3] [0, 1, 2]] = some [([0, 0], 0), ([0, 1], 1), ([2, 2], 2)] :=
  ⟨by decide +kernel, by decide +kernel⟩

/-- C54 is false for serial loops over three levels when the first row of a dense first level is
empty: the row stays at 0 for the whole loop. -/
theorem fused_first_row_fails :
    unfused [.dense 3, .comp [0, 0, 1, 2] [0, 0], .comp [0, 1, 2] [0, 0]] = some [([1, 0, 0], 0), ([2, 0, 0], 1)] ∧
    serial [.dense 3, .comp [0, 0, 1, 2] [0, 0], .comp [0, 1, 2] [0, 0]] = some [([0, 0, 0], 0), ([0, 0, 0], 1)] :=
  ⟨by decide +kernel, by decide +kernel⟩

/-- C54 is false for chunks over three levels when a row of a dense first level is empty: the search
finds the empty row, and the row stays there. -/
theorem fused_chunk_empty_row_fails :
    unfused [.dense 3, .comp [0, 1, 1, 2] [0, 0], .comp [0, 1, 2] [0, 0]] = some [([0, 0, 0], 0), ([2, 0, 0], 1)] ∧
    splitChunks [.dense 3, .comp [0, 1, 1, 2] [0, 0], .comp [0, 1, 2] [0, 0]] 1 = some [([0, 0, 0], 0), ([1, 0, 0], 1)] :=
  ⟨by decide +kernel, by decide +kernel⟩

/-- Chunks of a divided loop can start after the last position; the search then reads coordinates
after the end of a compressed level. -/
theorem fused_divide_fails :
    unfused [.comp [0, 2] [0, 1], .comp [0, 1, 3] [0, 0, 1]] = some [([0, 0], 0), ([1, 0], 1), ([1, 1], 2)] ∧
    divideChunks [.comp [0, 2] [0, 1], .comp [0, 1, 3] [0, 0, 1]] 4 = none :=
  ⟨by decide +kernel, by decide +kernel⟩

/-- Fusing inner levels only: in the first iteration of the outer loop (row 0 with one component) the
loop visits the components of all rows. -/
theorem fused_inner_fails :
    unfused [.dense 2, .comp [0, 1, 2] [0, 0], .comp [0, 1, 2] [0, 5]] = some [([0, 0, 0], 0), ([1, 0, 5], 1)] ∧
    innerFirst [.dense 2, .comp [0, 1, 2] [0, 0], .comp [0, 1, 2] [0, 5]] = some [([0, 0], 0), ([0, 5], 1)] :=
  ⟨by decide +kernel, by decide +kernel⟩

end Verif.Fused
