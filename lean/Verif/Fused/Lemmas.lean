import Verif.Fused.Spec
import Verif.Pack.Theorems
import Verif.Search.Theorems
namespace Verif.Fused
open Verif.Merge (Lvl)
open Verif.Pack
open Verif.Provenance

/-- A link between a level with `n` positions and one with `m`. -/
structure LinkOK (l : Link) (n m : Nat) : Prop where
  len : l.pos.length = n + 1
  zero : l.pos[0]? = some 0
  last : l.pos[n]? = some m
  mono : ∀ (i j a b : Nat), i ≤ j → l.pos[i]? = some a → l.pos[j]? = some b → a ≤ b
  crdLen : ∀ crd, l.crd = some crd → crd.length = n
  full : l.crd.isSome = true → NoEmpty l.pos

/-- A chain of links from the inside out; the last level has `m` positions. Only the outermost link is
dense. -/
def ChainOK : List Link → List Nat → Nat → Prop
  | [], [], _ => True
  | l :: ls, n :: ns, m => LinkOK l n m ∧ (l.crd = none → ls = []) ∧ ChainOK ls ns n
  | _, _, _ => False

/-- `p` is the position above `k`. -/
def Owns (pos : List Nat) (k p : Nat) : Prop := ∃ a b, pos[p]? = some a ∧ pos[p + 1]? = some b ∧ a ≤ k ∧ k < b

/-- The variables are those of the ancestors of `k`. -/
def Valid : List Link → Nat → St → Prop
  | [], _, st => st = []
  | _ :: _, _, [] => False
  | l :: ls, k, s :: st => Owns l.pos k s.1 ∧ coordAt l s.1 = some s.2 ∧ Valid ls s.1 st

theorem owns_unique {l : Link} {n m k p q : Nat} (h : LinkOK l n m) (hp : Owns l.pos k p) (hq : Owns l.pos k q) :
    p = q := by
  obtain ⟨a, b, h1, h2, h3, h4⟩ := hp
  obtain ⟨c, d, h5, h6, h7, h8⟩ := hq
  rcases Nat.lt_trichotomy p q with hlt | he | hlt
  · have := h.mono (p + 1) q b c (by omega) h2 h5; omega
  · exact he
  · have := h.mono (q + 1) p d a (by omega) h6 h1; omega

theorem valid_unique : ∀ {ls : List Link} {ns : List Nat} {m k : Nat} {s t : St}, ChainOK ls ns m → Valid ls k s →
    Valid ls k t → s = t
  | [], _, _, _, s, t, _, hs, ht => by
    have hs : s = [] := hs
    have ht : t = [] := ht
    rw [hs, ht]
  | l :: ls, [], _, _, _, _, hc, _, _ => hc.elim
  | l :: ls, n :: ns, m, k, [], _, _, hs, _ => hs.elim
  | l :: ls, n :: ns, m, k, _ :: _, [], _, _, ht => ht.elim
  | l :: ls, n :: ns, m, k, (p, c) :: s, (q, d) :: t, hc, hs, ht => by
    obtain ⟨h1, _, h2⟩ := hc
    obtain ⟨a1, a2, a3⟩ := hs
    obtain ⟨b1, b2, b3⟩ := ht
    have hpq : p = q := owns_unique h1 a1 b1
    subst hpq
    have hcd : c = d := by
      have a2 : coordAt l p = some c := a2
      have b2 : coordAt l p = some d := b2
      rw [a2] at b2; exact Option.some.inj b2
    subst hcd
    rw [valid_unique h2 a3 b3]

theorem coordAt_some {l : Link} {n m p : Nat} (h : LinkOK l n m) (hp : p < n) : ∃ c, coordAt l p = some c := by
  unfold coordAt
  cases hc : l.crd with
  | none => exact ⟨p, rfl⟩
  | some crd =>
    have := h.crdLen crd hc
    exact ⟨crd[p]'(by omega), List.getElem?_eq_getElem (by omega)⟩

theorem pos_get {l : Link} {n m p : Nat} (h : LinkOK l n m) (hp : p ≤ n) : ∃ a, l.pos[p]? = some a :=
  ⟨l.pos[p]'(by have := h.len; omega), List.getElem?_eq_getElem (by have := h.len; omega)⟩

theorem owns_lt {l : Link} {n m k p : Nat} (h : LinkOK l n m) (hp : Owns l.pos k p) : p < n := by
  obtain ⟨a, b, _, h2, _, _⟩ := hp
  have := (List.getElem?_eq_some_iff.1 h2).1
  have := h.len
  omega

/-- The while loop of a dense level finds the owner when all the positions behind are ends of segments
at `k`. -/
theorem whileStep_owner {l : Link} {n m k : Nat} (h : LinkOK l n m) (hd : l.crd = none) (hk : k < m) :
    ∀ (f p : Nat) (c : Nat) (st : St), n < f + p → p ≤ n → c = p →
      (∀ a, l.pos[p]? = some a → a ≤ k) → (∀ q a, p < q → l.pos[q]? = some a → k ≤ a) →
      ∃ q, whileStep l k (track []) f (p, c) st = some ((q, q), st) ∧ Owns l.pos k q := by
  intro f
  induction f with
  | zero => intro p c st h1 h2; omega
  | succ f ih =>
    intro p c st h1 h2 hcp hle hge
    subst hcp
    have hpn : c < n := by
      rcases Nat.lt_or_ge c n with hlt | hge'
      · exact hlt
      · have hcn : c = n := by omega
        subst hcn
        have := hle m h.last
        omega
    obtain ⟨e, he⟩ := pos_get h (show c + 1 ≤ n by omega)
    unfold whileStep
    rw [show ((c, c) : Nat × Nat).1 = c from rfl, he]
    simp only
    by_cases hke : k = e
    · rw [if_pos hke]
      have hco : coordAt l (c + 1) = some (c + 1) := by unfold coordAt; rw [hd]
      rw [hco]
      have ht : track [] (c + 1) st = some st := rfl
      rw [ht]
      simp only
      refine ih (c + 1) (c + 1) st (by omega) (by omega) rfl ?_ ?_
      · intro a ha; rw [he] at ha; rw [← Option.some.inj ha, hke]; exact Nat.le_refl _
      · intro q a hq ha; exact hge q a (by omega) ha
    · rw [if_neg hke]
      obtain ⟨a, ha⟩ := pos_get h h2
      refine ⟨c, rfl, a, e, ha, he, hle a ha, ?_⟩
      have := hge (c + 1) e (by omega) he
      omega

theorem track_dense {l : Link} {n m k : Nat} (h : LinkOK l n m) (hd : l.crd = none) (hk : k < m) {p c : Nat}
    (hpn : p ≤ n) (hc : c = p) (hle : ∀ a, l.pos[p]? = some a → a ≤ k)
    (hge : ∀ q a, p < q → l.pos[q]? = some a → k ≤ a) :
    ∃ st', track [l] k [(p, c)] = some st' ∧ Valid [l] k st' := by
  obtain ⟨q, h1, h2⟩ := whileStep_owner h hd hk (l.pos.length + 1) p c [] (by have := h.len; omega) hpn hc hle hge
  refine ⟨[(q, q)], ?_, h2, ?_, rfl⟩
  · unfold track
    rw [hd]
    simp only [Option.isSome_none, Bool.false_eq_true, if_false]
    rw [h1]; rfl
  · unfold coordAt; rw [hd]

/-- From one position to the next. -/
theorem track_next : ∀ {ls : List Link} {ns : List Nat} {m k : Nat} {st : St}, ChainOK ls ns m → Valid ls k st →
    k + 1 < m → ∃ st', track ls (k + 1) st = some st' ∧ Valid ls (k + 1) st'
  | [], _, _, _, st, _, hv, _ => ⟨st, rfl, hv⟩
  | _ :: _, [], _, _, _, hc, _, _ => hc.elim
  | _ :: _, _ :: _, _, _, [], _, hv, _ => hv.elim
  | l :: ls, n :: ns, m, k, (p, c) :: st, hc, hv, hk => by
    obtain ⟨hl, hd, hcs⟩ := hc
    obtain ⟨ho, hco, hvs⟩ := hv
    have hpn : p < n := owns_lt hl ho
    obtain ⟨a, b, h1, h2, h3, h4⟩ := ho
    simp only at h1 h2
    cases hcrd : l.crd with
    | none =>
      have hls := hd hcrd
      subst hls
      have hst : st = [] := hvs
      subst hst
      have hcp : c = p := by
        have hco : coordAt l p = some c := hco
        unfold coordAt at hco
        rw [hcrd] at hco
        exact (Option.some.inj hco).symm
      refine track_dense hl hcrd hk (by omega) hcp ?_ ?_
      · intro x hx; rw [h1] at hx; have := Option.some.inj hx; omega
      · intro q x hq hx
        have := hl.mono (p + 1) q b x (by omega) h2 hx
        omega
    | some crd =>
      unfold track
      rw [hcrd]
      simp only [Option.isSome_some, if_true]
      unfold ifStep
      rw [show ((p, c) : Nat × Nat).1 = p from rfl, h2]
      simp only
      by_cases hkb : k + 1 = b
      · rw [if_pos hkb]
        have hpn' : p + 1 < n := by
          rcases Nat.lt_or_ge (p + 1) n with h | h
          · exact h
          · have : p + 1 = n := by omega
            rw [this] at h2
            rw [hl.last] at h2
            have := Option.some.inj h2
            omega
        obtain ⟨c', hc'⟩ := coordAt_some hl hpn'
        obtain ⟨st', ht, hv'⟩ := track_next hcs hvs hpn'
        rw [hc', ht]
        refine ⟨(p + 1, c') :: st', rfl, ?_, hc', hv'⟩
        obtain ⟨d, hd'⟩ := pos_get hl (show p + 1 + 1 ≤ n by omega)
        have := hl.full (by rw [hcrd]; rfl) (p + 1) b d h2 hd'
        exact ⟨b, d, h2, hd', by omega, by omega⟩
      · rw [if_neg hkb]
        exact ⟨(p, c) :: st, rfl, ⟨a, b, h1, h2, by omega, by omega⟩, hco, hvs⟩

/-- At a position whose variables are right already nothing changes. -/
theorem track_valid : ∀ {ls : List Link} {ns : List Nat} {m k : Nat} {st : St}, ChainOK ls ns m → Valid ls k st →
    track ls k st = some st
  | [], _, _, _, _, _, _ => rfl
  | _ :: _, [], _, _, _, hc, _ => hc.elim
  | _ :: _, _ :: _, _, _, [], _, hv => hv.elim
  | l :: ls, n :: ns, m, k, (p, c) :: st, hc, hv => by
    obtain ⟨⟨a, b, h1, h2, h3, h4⟩, _, _⟩ := hv
    simp only at h2
    unfold track
    have e1 : ifStep l k (track ls) (p, c) st = some ((p, c), st) := by
      unfold ifStep
      rw [show ((p, c) : Nat × Nat).1 = p from rfl, h2]
      simp only
      rw [if_neg (by omega)]
    have e2 : whileStep l k (track ls) (l.pos.length + 1) (p, c) st = some ((p, c), st) := by
      unfold whileStep
      rw [show ((p, c) : Nat × Nat).1 = p from rfl, h2]
      simp only
      rw [if_neg (by omega)]
    rw [e1, e2]
    split <;> rfl

/-- The loop from a position on, given what each position should deliver. -/
theorem loop_events {ls : List Link} {ns : List Nat} {m : Nat} (hc : ChainOK ls ns m) {crd : List Nat}
    {out : List (List Nat × Nat)} (hlen : out.length = m)
    (hout : ∀ k (h : k < m), ∃ st c, Valid ls k st ∧ crd[k]? = some c ∧ out[k] = ((st.map Prod.snd).reverse ++ [c], k)) :
    ∀ (r k : Nat) (st : St), k + r ≤ m → (0 < r → ∃ st', track ls k st = some st' ∧ Valid ls k st') →
      loop ls crd (List.range' k r) st = some ((out.drop k).take r) := by
  intro r
  induction r with
  | zero => intro k st _ _; rw [List.take_zero]; rfl
  | succ r ih =>
    intro k st hkr hr
    obtain ⟨st', ht, hv⟩ := hr (by omega)
    rw [List.range'_succ]
    unfold loop
    rw [ht]
    simp only
    have hk : k < m := by omega
    obtain ⟨st2, c, hv2, hcc, ho⟩ := hout k hk
    have hst : st' = st2 := valid_unique hc hv hv2
    subst hst
    rw [hcc, ih (k + 1) st' (by omega) (fun _ => track_next hc hv (by omega))]
    simp only
    rw [List.drop_eq_getElem_cons (by omega : k < out.length), List.take_succ_cons, ho]

/-! ### The chain of a tensor -/

theorem mono_of_pairwise {pos : List Nat} (h : pos.Pairwise (· ≤ ·)) :
    ∀ (i j a b : Nat), i ≤ j → pos[i]? = some a → pos[j]? = some b → a ≤ b := by
  intro i j a b hij ha hb
  obtain ⟨hi, rfl⟩ := List.getElem?_eq_some_iff.1 ha
  obtain ⟨hj, rfl⟩ := List.getElem?_eq_some_iff.1 hb
  rcases Nat.lt_or_ge i j with hlt | hge
  · exact List.pairwise_iff_getElem.1 h i j hi hj hlt
  · have : i = j := by omega
    subst this; exact Nat.le_refl _

/-- A way down from a position: coordinates and last position. -/
def Path : List Lvl → Nat → List Nat → Nat → Prop
  | [], p, cs, k => cs = [] ∧ k = p
  | .dense n :: ls, p, cs, k => ∃ c cs', cs = c :: cs' ∧ c < n ∧ Path ls (p * n + c) cs' k
  | .comp pos crd :: ls, p, cs, k => ∃ q c cs', cs = c :: cs' ∧ Owns pos q p ∧ crd[q]? = some c ∧ Path ls q cs' k

theorem forAll_mem {α : Type} {f : Nat → Option (List α)} : ∀ {l : List Nat} {out : List α}, forAll f l = some out →
    ∀ x ∈ out, ∃ q ∈ l, ∃ r, f q = some r ∧ x ∈ r
  | [], out, h, x, hx => by
    have h : some [] = some out := h
    rw [← Option.some.inj h] at hx; simp at hx
  | q :: qs, out, h, x, hx => by
    unfold forAll at h
    cases h1 : f q with
    | none => rw [h1] at h; simp at h
    | some a =>
      cases h2 : forAll f qs with
      | none => rw [h1, h2] at h; simp at h
      | some b =>
        rw [h1, h2] at h
        rw [← Option.some.inj h, List.mem_append] at hx
        rcases hx with hx | hx
        · exact ⟨q, List.mem_cons_self, a, h1, hx⟩
        · obtain ⟨q', hq', r, hr, hxr⟩ := forAll_mem h2 x hx
          exact ⟨q', List.mem_cons_of_mem _ hq', r, hr, hxr⟩

theorem walk_path : ∀ {lv : List Lvl} {n p : Nat} {out : List (List Nat × Nat)}, walk (List.range n) lv p = some out →
    ∀ x ∈ out, Path lv p x.1 x.2 := by
  intro lv
  induction lv with
  | nil =>
    intro n p out h x hx
    unfold walk at h
    cases hv : (List.range n)[p]? with
    | none => rw [hv] at h; simp at h
    | some v =>
      rw [hv] at h
      rw [← Option.some.inj h, List.mem_singleton] at hx
      subst hx
      refine ⟨rfl, ?_⟩
      rw [List.getElem?_eq_some_iff] at hv
      obtain ⟨_, hv⟩ := hv
      rw [List.getElem_range] at hv
      exact hv.symm
  | cons l lv ih =>
    intro n p out h x hx
    cases l with
    | dense d =>
      unfold walk at h
      obtain ⟨q, hq, r, hr, hxr⟩ := forAll_mem h x hx
      rw [Option.map_eq_some_iff] at hr
      obtain ⟨w, hw, rfl⟩ := hr
      obtain ⟨y, hy, rfl⟩ := List.mem_map.1 hxr
      exact ⟨q, y.1, rfl, List.mem_range.1 hq, ih hw y hy⟩
    | comp pos crd =>
      unfold walk at h
      cases h1 : pos[p]? with
      | none => rw [h1] at h; simp at h
      | some a =>
        cases h2 : pos[p + 1]? with
        | none => rw [h1, h2] at h; simp at h
        | some b =>
          rw [h1, h2] at h
          obtain ⟨q, hq, r, hr, hxr⟩ := forAll_mem h x hx
          cases hc : crd[q]? with
          | none => rw [hc] at hr; simp at hr
          | some c =>
            rw [hc] at hr
            simp only at hr
            rw [Option.map_eq_some_iff] at hr
            obtain ⟨w, hw, rfl⟩ := hr
            obtain ⟨y, hy, rfl⟩ := List.mem_map.1 hxr
            rw [List.mem_range'_1] at hq
            exact ⟨q, c, y.1, rfl, ⟨a, b, h1, h2, hq.1, by omega⟩, hc, ih hw y hy⟩

/-- The coordinate of a level above at a position. -/
def curAt (cur : Option (List Nat)) (p : Nat) : Option Nat := coordAt ⟨cur, []⟩ p

/-- The chain belongs to the levels: its links are right, and ways down are valid variables. -/
theorem chainFrom_ok : ∀ (dims : List Nat) (ls : List Lvl) (cur : Option (List Nat)) (acc : List Link) (ns : List Nat)
    (s m : Nat), dims.length = ls.length → IndexWF s (dims.zip ls) m → (∀ x ∈ ls, ∃ pos crd, x = .comp pos crd) →
    (ls = [] → cur.isSome = true) →
    (∀ crd, cur = some crd → crd.length = s) → (cur = none → acc = []) → ChainOK acc ns s →
    (cur.isSome = true → NoEmptyBelow (.comp [] [] :: ls)) → NoEmptyBelow ls →
    ∃ ch crd sz, chainFrom cur acc ls = some (ch, crd) ∧ sizesFrom s ls = some sz ∧
      ((s :: sz).reverse ++ ns).head? = some m ∧
      ChainOK ch (((s :: sz).reverse ++ ns).tail) m ∧
      ∀ p st c cs k, Valid acc p st → curAt cur p = some c → Path ls p cs k →
        ∃ st' c', Valid ch k st' ∧ crd[k]? = some c' ∧
          (st.map Prod.snd).reverse ++ c :: cs = (st'.map Prod.snd).reverse ++ [c'] := by
  intro dims
  induction dims with
  | nil =>
    intro ls cur acc ns s m hl hw hcomp hcur hcl hca hacc _ _
    cases ls with
    | cons _ _ => simp at hl
    | nil =>
      have hms : m = s := hw
      subst hms
      obtain ⟨crd, hcrd⟩ := Option.isSome_iff_exists.1 (hcur rfl)
      subst hcrd
      refine ⟨acc, crd, [], rfl, rfl, by simp, by simpa using hacc, ?_⟩
      intro p st c cs k hv hc hp
      obtain ⟨rfl, rfl⟩ := hp
      exact ⟨st, c, hv, hc, rfl⟩
  | cons n dims ih =>
    intro ls cur acc ns s m hl hw hcomp hcur hcl hca hacc hne hne'
    cases ls with
    | nil => simp at hl
    | cons l ls =>
      obtain ⟨pos, crd, rfl⟩ := hcomp l List.mem_cons_self
      obtain ⟨w1, w2, w3, w4, w5, w6, w7⟩ := hw
      have hlink : LinkOK ⟨cur, pos⟩ s crd.length := by
        refine ⟨w1, w2, w3, mono_of_pairwise w4, hcl, ?_⟩
        intro hsome
        exact (hne hsome).1
      have hne2 : NoEmptyBelow (.comp [] [] :: ls) := by
        cases ls with
        | nil => trivial
        | cons x xs =>
          obtain ⟨pos', crd', rfl⟩ := hcomp x (List.mem_cons_of_mem _ List.mem_cons_self)
          exact ⟨hne'.1, hne'.2⟩
      have hne3 : NoEmptyBelow ls := by
        cases ls with
        | nil => trivial
        | cons x xs =>
          obtain ⟨pos', crd', rfl⟩ := hcomp x (List.mem_cons_of_mem _ List.mem_cons_self)
          exact hne'.2
      have hacc' : ChainOK (⟨cur, pos⟩ :: acc) (s :: ns) crd.length := ⟨hlink, hca, hacc⟩
      obtain ⟨ch, lc, sz, e1, e2, e3, e4, e5⟩ := ih ls (some crd) (⟨cur, pos⟩ :: acc) (s :: ns) crd.length m (by simpa using hl) w7
        (fun x hx => hcomp x (List.mem_cons_of_mem _ hx)) (fun _ => rfl) (fun c hc => by rw [← Option.some.inj hc])
        (fun h => by cases h) hacc' (fun _ => hne2) hne3
      refine ⟨ch, lc, crd.length :: sz, e1, ?_, ?_, ?_, ?_⟩
      · unfold sizesFrom; rw [w3]; simp only; rw [e2]; rfl
      · have : ((s :: crd.length :: sz).reverse ++ ns) = ((crd.length :: sz).reverse ++ (s :: ns)) := by simp
        rw [this]; exact e3
      · have : ((s :: crd.length :: sz).reverse ++ ns) = ((crd.length :: sz).reverse ++ (s :: ns)) := by simp
        rw [this]; exact e4
      · intro p st c cs k hv hc hp
        obtain ⟨q, c', cs', rfl, ho, hq, hp'⟩ := hp
        have hv' : Valid (⟨cur, pos⟩ :: acc) q ((p, c) :: st) := by
          refine ⟨ho, ?_, hv⟩
          unfold curAt coordAt at hc
          unfold coordAt
          exact hc
        obtain ⟨st', c'', h1, h2, h3⟩ := e5 q ((p, c) :: st) c' cs' k hv' hq hp'
        refine ⟨st', c'', h1, h2, ?_⟩
        rw [← h3]; simp

end Verif.Fused
