import Verif.Numpy.Model
import Verif.Numpy.Spec

namespace Verif.Numpy

/-! ### Variables with values -/

theorem lookup_zip : ∀ {vs : List Var} {c : List Nat}, vs.Nodup → vs.length = c.length →
    vs.map (fun v => ((vs.zip c).lookup v).getD 0) = c
  | [], [], _, _ => rfl
  | [], _ :: _, _, h => nomatch h
  | _ :: _, [], _, h => nomatch h
  | v :: vs, x :: c, hn, hl => by
    rw [List.nodup_cons] at hn
    rw [List.map_cons, List.zip_cons_cons]
    congr 1
    · simp [List.lookup]
    · have ih := lookup_zip hn.2 (Nat.succ.inj hl)
      refine Eq.trans (List.map_congr_left fun w hw => ?_) ih
      have hne : (w == v) = false := by
        rw [beq_eq_false_iff_ne]
        rintro rfl
        exact hn.1 hw
      simp only [List.lookup, hne]

theorem map_bindEnv {vs : List Var} {c : List Nat} (hn : vs.Nodup) (hl : vs.length = c.length) :
    vs.map (bindEnv vs c) = c := lookup_zip hn hl

/-- Variables take one value only. -/
theorem map_unique {vs : List Var} {e e' : Env} (h : vs.map e = vs.map e') : ∀ v ∈ vs, e v = e' v := by
  intro v hv
  obtain ⟨i, hi, rfl⟩ := List.mem_iff_getElem.1 hv
  have := congrArg (fun l => l[i]?) h
  simp only [List.getElem?_map, List.getElem?_eq_getElem hi, Option.map_some] at this
  exact Option.some.inj this

theorem fresh_nodup (c n : Nat) : (fresh c n).Nodup := List.nodup_range'

theorem fresh_length (c n : Nat) : (fresh c n).length = n := List.length_range'

theorem mem_fresh {c n v : Nat} : v ∈ fresh c n ↔ c ≤ v ∧ v < c + n := by
  unfold fresh
  rw [List.mem_range'_1]

/-! ### Reduction variables -/

theorem mem_firsts {v : Var} : ∀ {vs : List Var}, v ∈ firsts vs ↔ v ∈ vs
  | [] => Iff.rfl
  | w :: vs => by
    unfold firsts
    rw [List.mem_cons, List.mem_cons, List.mem_filter, mem_firsts]
    by_cases h : v = w
    · exact ⟨fun _ => .inl h, fun _ => .inl h⟩
    · simp [h]

theorem firsts_nodup : ∀ (vs : List Var), (firsts vs).Nodup
  | [] => List.nodup_nil
  | w :: vs => by
    unfold firsts
    refine List.nodup_cons.2 ⟨?_, (firsts_nodup vs).filter _⟩
    rw [List.mem_filter]
    simp

theorem mem_reductions {a : Assignment} {v : Var} :
    v ∈ reductions a ↔ (∃ o ∈ a.operands, v ∈ o.vars) ∧ v ∉ a.lhs := by
  unfold reductions
  rw [List.mem_filter, mem_firsts, List.mem_flatMap]
  simp

theorem reductions_nodup (a : Assignment) : (reductions a).Nodup := (firsts_nodup _).filter _

/-! ### Loops -/

theorem mem_envs : ∀ {l : List (Var × Nat)} {e e' : Env}, (l.map (·.1)).Nodup →
    (e' ∈ envs l e ↔ (∀ p ∈ l, e' p.1 < p.2) ∧ ∀ v, v ∉ l.map (·.1) → e' v = e v)
  | [], e, e', _ => by
    show e' ∈ [e] ↔ _
    rw [List.mem_singleton]
    constructor
    · rintro rfl
      exact ⟨fun _ h => (nomatch h), fun _ _ => rfl⟩
    · intro h
      funext v
      exact h.2 v (fun h => nomatch h)
  | (v, n) :: l, e, e', hn => by
    rw [List.map_cons, List.nodup_cons] at hn
    unfold envs
    rw [List.mem_flatMap]
    constructor
    · rintro ⟨x, hx, h⟩
      obtain ⟨h1, h2⟩ := (mem_envs hn.2).1 h
      have hv : e' v = x := by
        rw [h2 v hn.1]
        show (if v = v then x else e v) = x
        rw [if_pos rfl]
      refine ⟨?_, ?_⟩
      · intro p hp
        rcases List.mem_cons.1 hp with rfl | hp
        · show e' v < n
          rw [hv]
          exact List.mem_range.1 hx
        · exact h1 p hp
      · intro w hw
        rw [List.map_cons, List.mem_cons, not_or] at hw
        rw [h2 w hw.2]
        show (if w = v then x else e w) = e w
        rw [if_neg hw.1]
    · rintro ⟨h1, h2⟩
      refine ⟨e' v, List.mem_range.2 (h1 _ List.mem_cons_self), (mem_envs hn.2).2 ⟨?_, ?_⟩⟩
      · exact fun p hp => h1 p (List.mem_cons_of_mem _ hp)
      · intro w hw
        show e' w = if w = v then e' v else e w
        split
        · rename_i h
          rw [h]
        · rename_i h
          refine h2 w ?_
          rw [List.map_cons, List.mem_cons, not_or]
          exact ⟨h, hw⟩

theorem nodup_flatMap {α β : Type} {f : α → List β} : ∀ {l : List α}, l.Nodup → (∀ x ∈ l, (f x).Nodup) →
    (∀ x ∈ l, ∀ y ∈ l, ∀ z, z ∈ f x → z ∈ f y → x = y) → (l.flatMap f).Nodup
  | [], _, _, _ => List.nodup_nil
  | x :: l, hn, h1, h2 => by
    rw [List.nodup_cons] at hn
    rw [List.flatMap_cons]
    refine List.nodup_append.2 ⟨h1 x List.mem_cons_self, ?_, ?_⟩
    · exact nodup_flatMap hn.2 (fun y hy => h1 y (List.mem_cons_of_mem _ hy))
        (fun y hy z hz w => h2 y (List.mem_cons_of_mem _ hy) z (List.mem_cons_of_mem _ hz) w)
    · intro z hz w hw hzw
      subst hzw
      obtain ⟨y, hy, hzy⟩ := List.mem_flatMap.1 hw
      have := h2 x List.mem_cons_self y (List.mem_cons_of_mem _ hy) z hz hzy
      exact hn.1 (this ▸ hy)

theorem envs_nodup : ∀ {l : List (Var × Nat)} {e : Env}, (l.map (·.1)).Nodup → (envs l e).Nodup
  | [], _, _ => List.nodup_cons.2 ⟨(fun h => nomatch h), List.nodup_nil⟩
  | (v, n) :: l, e, hn => by
    rw [List.map_cons, List.nodup_cons] at hn
    unfold envs
    refine nodup_flatMap List.nodup_range (fun x _ => envs_nodup hn.2) ?_
    intro x _ y _ z hx hy
    have h1 := ((mem_envs hn.2).1 hx).2 v hn.1
    have h2 := ((mem_envs hn.2).1 hy).2 v hn.1
    rw [h1] at h2
    have h3 : (if v = v then x else e v) = if v = v then y else e v := h2
    rw [if_pos rfl, if_pos rfl] at h3
    exact h3

theorem nodup_map_on {α β : Type} {f : α → β} : ∀ {l : List α}, l.Nodup →
    (∀ x ∈ l, ∀ y ∈ l, f x = f y → x = y) → (l.map f).Nodup
  | [], _, _ => List.nodup_nil
  | x :: l, hn, h => by
    rw [List.nodup_cons] at hn
    rw [List.map_cons]
    refine List.nodup_cons.2 ⟨?_, nodup_map_on hn.2 fun y hy z hz =>
      h y (List.mem_cons_of_mem _ hy) z (List.mem_cons_of_mem _ hz)⟩
    intro hm
    obtain ⟨y, hy, he⟩ := List.mem_map.1 hm
    exact hn.1 (h y (List.mem_cons_of_mem _ hy) x List.mem_cons_self he ▸ hy)

/-! ### Sizes -/

theorem consistent_iff {a : Assignment} : consistent a = true ↔ a.lhs.length = a.shape.length ∧
    (∀ o ∈ a.operands, o.vars.length = o.shape.length) ∧
    ∀ p ∈ uses a, ∀ q ∈ uses a, p.1 = q.1 → p.2 = q.2 := by
  unfold consistent
  simp only [Bool.and_eq_true, decide_eq_true_eq, List.all_eq_true, Bool.or_eq_true]
  constructor
  · rintro ⟨⟨h1, h2⟩, h3⟩
    exact ⟨h1, h2, fun p hp q hq he => (h3 p hp q hq).resolve_left fun hne => hne he⟩
  · rintro ⟨h1, h2, h3⟩
    refine ⟨⟨h1, h2⟩, fun p hp q hq => ?_⟩
    by_cases he : p.1 = q.1
    · exact .inr (h3 p hp q hq he)
    · exact .inl he

theorem mem_zip_map {f : Env} {vs : List Var} {s : List Nat} (h : vs.map f = s) : ∀ p ∈ vs.zip s, f p.1 = p.2 := by
  subst h
  intro p hp
  rw [List.zip_map_right] at hp
  obtain ⟨q, hq, rfl⟩ := List.mem_map.1 hp
  have : q.1 = q.2 := by
    obtain ⟨i, hi, he⟩ := List.mem_iff_getElem.1 hq
    rw [List.getElem_zip] at he
    rw [← he]
  show f q.1 = f q.2
  rw [this]

/-- An assignment is accepted if sizes can be given to its variables. -/
theorem consistent_of {a : Assignment} (f : Env) (h1 : a.lhs.map f = a.shape)
    (h2 : ∀ o ∈ a.operands, o.vars.map f = o.shape) : assign a = some a := by
  have hu : ∀ p ∈ uses a, f p.1 = p.2 := by
    intro p hp
    rcases List.mem_append.1 hp with hp | hp
    · exact mem_zip_map h1 p hp
    · obtain ⟨o, ho, hp⟩ := List.mem_flatMap.1 hp
      exact mem_zip_map (h2 o ho) p hp
  unfold assign
  rw [if_pos (consistent_iff.2 ⟨by rw [← h1, List.length_map], fun o ho => by rw [← h2 o ho, List.length_map], ?_⟩)]
  intro p hp q hq he
  rw [← hu p hp, ← hu q hq, he]

theorem lookup_mem {l : List (Var × Nat)} {v : Var} (h : ∃ n, (v, n) ∈ l) : ∃ n, l.lookup v = some n ∧ (v, n) ∈ l := by
  induction l with
  | nil => exact nomatch h.choose_spec
  | cons p l ih =>
    obtain ⟨w, m⟩ := p
    by_cases hw : v = w
    · subst hw
      exact ⟨m, by simp [List.lookup], List.mem_cons_self⟩
    · obtain ⟨n, hn⟩ := h
      rcases List.mem_cons.1 hn with h1 | h2
      · exact absurd (congrArg Prod.fst h1) hw
      · obtain ⟨k, h3, h4⟩ := ih ⟨n, h2⟩
        refine ⟨k, ?_, List.mem_cons_of_mem _ h4⟩
        have : (v == w) = false := beq_eq_false_iff_ne.2 hw
        simp only [List.lookup, this]
        exact h3

theorem size_eq {a : Assignment} (h : consistent a = true) {v n : Nat} (hu : (v, n) ∈ uses a) : size a v = n := by
  obtain ⟨m, h1, h2⟩ := lookup_mem ⟨n, hu⟩
  unfold size
  rw [h1]
  exact (consistent_iff.1 h).2.2 _ h2 _ hu rfl

theorem mem_zip_of {vs : List Var} {s : List Nat} (hl : vs.length = s.length) {v : Var} (hv : v ∈ vs) :
    ∃ n, (v, n) ∈ vs.zip s := by
  obtain ⟨i, hi, rfl⟩ := List.mem_iff_getElem.1 hv
  exact ⟨s[i]'(hl ▸ hi), List.mem_iff_getElem.2 ⟨i, by rw [List.length_zip]; omega, by rw [List.getElem_zip]⟩⟩

theorem lhs_in_range {vs : List Var} {s : List Nat} {r : List Nat} {e : Env} (h : vs.map e = r) (hr : InBox s r) :
    ∀ p ∈ vs.zip s, e p.1 < p.2 := by
  intro p hp
  obtain ⟨i, hi, rfl⟩ := List.mem_iff_getElem.1 hp
  rw [List.length_zip] at hi
  rw [List.getElem_zip]
  refine hr.2 i _ _ ?_ (List.getElem?_eq_getElem (by omega))
  rw [← h, List.getElem?_map, List.getElem?_eq_getElem (by omega)]
  rfl

/-! ### The terms of an assignment -/

theorem terms_nodup (a : Assignment) (r : List Nat) : (terms a r).Nodup := by
  have hk : (((reductions a).map fun v => (v, size a v)).map (·.1)).Nodup := by
    rw [List.map_map]
    exact (List.map_id _).symm ▸ reductions_nodup a
  refine nodup_map_on (envs_nodup hk) ?_
  intro e1 h1 e2 h2 he
  rw [mem_envs hk] at h1 h2
  funext v
  by_cases hv : v ∈ reductions a
  · obtain ⟨⟨o, ho, hvo⟩, _⟩ := mem_reductions.1 hv
    have : o.vars.map e1 = o.vars.map e2 := by
      obtain ⟨i, hi, rfl⟩ := List.mem_iff_getElem.1 ho
      have := congrArg (fun l => l[i]?) he
      simp only [List.getElem?_map, List.getElem?_eq_getElem hi, Option.map_some] at this
      exact Option.some.inj this
    exact map_unique this v hvo
  · have hv' : v ∉ ((reductions a).map fun v => (v, size a v)).map (·.1) := by
      rw [List.map_map]
      exact (List.map_id _).symm ▸ hv
    rw [h1.2 v hv', h2.2 v hv']

/-- The terms are those for all values of the variables that agree with the component. -/
theorem mem_terms {a : Assignment} (hc : consistent a = true) (hn : a.lhs.Nodup) {r : List Nat}
    (hr : InBox a.shape r) {cs : List (List Nat)} :
    cs ∈ terms a r ↔ ∃ e : Env, (∀ p ∈ uses a, e p.1 < p.2) ∧ a.lhs.map e = r ∧
      cs = a.operands.map fun o => o.vars.map e := by
  have hk : (((reductions a).map fun v => (v, size a v)).map (·.1)) = reductions a := by
    rw [List.map_map]
    exact List.map_id _
  have hk' : (((reductions a).map fun v => (v, size a v)).map (·.1)).Nodup := by
    rw [hk]
    exact reductions_nodup a
  have hlen := (consistent_iff.1 hc).1
  have hb : a.lhs.map (bindEnv a.lhs r) = r := map_bindEnv hn (by rw [hlen, hr.1])
  unfold terms
  rw [List.mem_map]
  constructor
  · rintro ⟨e, he, rfl⟩
    rw [mem_envs hk', hk] at he
    have h1 : a.lhs.map e = r := by
      refine Eq.trans (List.map_congr_left fun v hv => ?_) hb
      exact he.2 v fun hm => (mem_reductions.1 hm).2 hv
    refine ⟨e, ?_, h1, rfl⟩
    intro p hp
    by_cases hv : p.1 ∈ a.lhs
    · obtain ⟨n, hz⟩ := mem_zip_of hlen hv
      have h2 := lhs_in_range h1 hr _ hz
      have h3 := (consistent_iff.1 hc).2.2 p hp (p.1, n) (List.mem_append_left _ hz) rfl
      rw [h3]
      exact h2
    · rcases List.mem_append.1 hp with hp' | hp'
      · exact absurd (List.of_mem_zip hp').1 hv
      · obtain ⟨o, ho, hp'⟩ := List.mem_flatMap.1 hp'
        have hred : p.1 ∈ reductions a := mem_reductions.2 ⟨⟨o, ho, (List.of_mem_zip hp').1⟩, hv⟩
        have := he.1 _ (List.mem_map.2 ⟨p.1, hred, rfl⟩)
        rw [size_eq hc hp] at this
        exact this
  · rintro ⟨e, h1, h2, rfl⟩
    let e' : Env := fun v => if v ∈ reductions a then e v else bindEnv a.lhs r v
    have hag : ∀ o ∈ a.operands, ∀ v ∈ o.vars, e' v = e v := by
      intro o ho v hv
      show (if v ∈ reductions a then e v else bindEnv a.lhs r v) = e v
      split
      · rfl
      · rename_i hred
        have hl : v ∈ a.lhs := Classical.byContradiction fun hl => hred (mem_reductions.2 ⟨⟨o, ho, hv⟩, hl⟩)
        exact map_unique (hb.trans h2.symm) v hl
    refine ⟨e', (mem_envs hk').2 ⟨?_, ?_⟩, ?_⟩
    · intro p hp
      obtain ⟨v, hv, rfl⟩ := List.mem_map.1 hp
      show (if v ∈ reductions a then e v else bindEnv a.lhs r v) < size a v
      rw [if_pos hv]
      obtain ⟨⟨o, ho, hvo⟩, _⟩ := mem_reductions.1 hv
      obtain ⟨n, hz⟩ := mem_zip_of ((consistent_iff.1 hc).2.1 o ho) hvo
      have hu : (v, n) ∈ uses a := List.mem_append_right _ (List.mem_flatMap.2 ⟨o, ho, hz⟩)
      rw [size_eq hc hu]
      exact h1 _ hu
    · intro v hv
      rw [hk] at hv
      show (if v ∈ reductions a then e v else bindEnv a.lhs r v) = _
      rw [if_neg hv]
    · refine List.map_congr_left fun o ho => List.map_congr_left fun v hv => hag o ho v hv

/-- The coordinates of operands are inside of their shapes. -/
theorem inBox_of {vs : List Var} {s : List Nat} {e : Env} (hl : vs.length = s.length)
    (h : ∀ p ∈ vs.zip s, e p.1 < p.2) : InBox s (vs.map e) := by
  refine ⟨by rw [List.length_map, hl], fun i x n hx hn => ?_⟩
  rw [List.getElem?_map] at hx
  obtain ⟨v, hv, rfl⟩ := Option.map_eq_some_iff.1 hx
  refine h (v, n) (List.mem_iff_getElem?.2 ⟨i, ?_⟩)
  rw [List.getElem?_zip_eq_some]
  exact ⟨hv, hn⟩

theorem in_range_of {vs : List Var} {s : List Nat} {e : Env} (h : InBox s (vs.map e)) :
    ∀ p ∈ vs.zip s, e p.1 < p.2 := lhs_in_range rfl h

/-- The terms of an accepted assignment, given by coordinates. -/
theorem terms_lists {a : Assignment} (hc : assign a = some a) (hn : a.lhs.Nodup) {r : List Nat}
    (hr : InBox a.shape r) : Lists (terms a r) fun cs =>
      ∃ e : Env, (∀ o ∈ a.operands, InBox o.shape (o.vars.map e)) ∧ a.lhs.map e = r ∧
        cs = a.operands.map fun o => o.vars.map e := by
  have hc : consistent a = true := by
    unfold assign at hc
    split at hc
    · assumption
    · exact nomatch hc
  refine ⟨terms_nodup a r, fun cs => ?_⟩
  rw [mem_terms hc hn hr]
  constructor
  · rintro ⟨e, h1, h2, h3⟩
    refine ⟨e, fun o ho => ?_, h2, h3⟩
    exact inBox_of ((consistent_iff.1 hc).2.1 o ho) fun p hp =>
      h1 p (List.mem_append_right _ (List.mem_flatMap.2 ⟨o, ho, hp⟩))
  · rintro ⟨e, h1, h2, h3⟩
    refine ⟨e, fun p hp => ?_, h2, h3⟩
    rcases List.mem_append.1 hp with hp | hp
    · exact lhs_in_range h2 hr p hp
    · obtain ⟨o, ho, hp⟩ := List.mem_flatMap.1 hp
      exact in_range_of (h1 o ho) p hp

theorem assign_eq {a b : Assignment} (h : assign a = some b) : b = a ∧ assign a = some a := by
  have h' := h
  unfold assign at h
  split at h
  · cases h
    exact ⟨rfl, h'⟩
  · exact nomatch h

end Verif.Numpy
