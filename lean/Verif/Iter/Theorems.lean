import Verif.Iter.Model
/-! Property C06. -/
namespace Verif.Iter

variable {α : Type}

/-- The iterator stands at component `k`: its buffer holds the chunk that contains it. -/
structure At (cap : Nat) (comps : List α) (k : Nat) (s : Shared α) (it : Iter) : Prop where
  lt : k < comps.length
  pos : it.pos < it.size
  slot : it.slot = it.pos
  le : it.pos ≤ k
  fit : k - it.pos + it.size ≤ comps.length
  vals : (it.chunks * cap + it.pos : Int) = k
  buf : ∀ i, i < it.size → s.buf[i]? = comps[k - it.pos + i]?
  ctx : ∃ c, s.ctx = some c ∧
    ((c.label = 0 ∧ it.size = cap ∧ c.next = k - it.pos + it.size) ∨
     (c.label = 1 ∧ it.size < cap ∧ k - it.pos + it.size = comps.length))

theorem writeSlot_get (buf : List α) (n : Nat) (x : α) (h : n ≤ buf.length) :
    (writeSlot buf n x)[n]? = some x ∧ (∀ i, i < n → (writeSlot buf n x)[i]? = buf[i]?) ∧
    n + 1 ≤ (writeSlot buf n x).length := by
  unfold writeSlot
  split
  · rename_i hlt
    refine ⟨by simp [hlt], ?_, by simp; omega⟩
    intro i hi
    rw [List.getElem?_set_ne (by omega)]
  · have : n = buf.length := by omega
    subst this
    refine ⟨by simp, ?_, by simp⟩
    intro i hi
    rw [List.getElem?_append_left hi]

theorem produce_spec (cap : Nat) (comps : List α) : ∀ (rest : List α) (k n : Nat) (buf : List α),
    rest = comps.drop k → n ≤ k → n < cap → n ≤ buf.length → k ≤ comps.length →
    (∀ i, i < n → buf[i]? = comps[k - n + i]?) →
    let r := produce cap rest k n buf
    (∀ i, i < r.size → r.buf[i]? = comps[k - n + i]?) ∧ r.size ≤ r.buf.length ∧
    ((r.size = cap ∧ k - n + r.size ≤ comps.length ∧ r.ctx = some ⟨k - n + r.size, 0⟩) ∨
     (r.size < cap ∧ k - n + r.size = comps.length ∧ ∃ c, r.ctx = some c ∧ c.label = 1)) := by
  intro rest
  induction rest with
  | nil =>
    intro k n buf hrest hnk hn hb hk hbuf
    have hlen : comps.length ≤ k := by
      rcases Nat.lt_or_ge k comps.length with h | h
      · have := congrArg List.length hrest
        simp only [List.length_nil, List.length_drop] at this; omega
      · exact h
    refine ⟨hbuf, hb, Or.inr ⟨hn, ?_, ⟨k, 1⟩, rfl, rfl⟩⟩
    show k - n + n = comps.length
    omega
  | cons x xs ih =>
    intro k n buf hrest hnk hn hb hk hbuf
    obtain ⟨w1, w2, w3⟩ := writeSlot_get buf n x hb
    have hxk : comps[k]? = some x := by
      have := congrArg (fun l => l[0]?) hrest
      simpa using this.symm
    have hlt : k < comps.length := (List.getElem?_eq_some_iff.1 hxk).1
    have hxs : xs = comps.drop (k + 1) := by
      have := congrArg List.tail hrest
      simpa using this
    have hnew : ∀ i, i < n + 1 → (writeSlot buf n x)[i]? = comps[k - n + i]? := by
      intro i hi
      by_cases h : i = n
      · subst h; rw [w1, show k - i + i = k by omega, hxk]
      · rw [w2 i (by omega), hbuf i (by omega)]
    simp only
    unfold produce
    split
    · rename_i hcap
      simp only
      refine ⟨hnew, w3, Or.inl ⟨hcap, by omega, ?_⟩⟩
      rw [show k - n + (n + 1) = k + 1 by omega]
    · rename_i hcap
      have := ih (k + 1) (n + 1) (writeSlot buf n x) hxs (by omega) (by omega) w3 (by omega)
        (by rw [show k + 1 - (n + 1) = k - n by omega]; exact hnew)
      rw [show k + 1 - (n + 1) = k - n by omega] at this
      exact this

theorem fill_spec {cap : Nat} (hcap : 0 < cap) (comps : List α) (k : Nat) (hk : k ≤ comps.length)
    (buf : List α) (chunks : Int) (hch : (chunks + 1) * cap = k) (r : CallResult α)
    (hr : r = produce cap (comps.drop k) k 0 buf) :
    (k < comps.length → At cap comps k ⟨r.buf, r.ctx⟩ ⟨r.size, 0, 0, chunks + 1⟩) ∧
    (k = comps.length → r.size = 0) := by
  have h := produce_spec cap comps (comps.drop k) k 0 buf rfl (by omega) hcap (by omega) hk
    (fun i hi => absurd hi (by omega))
  rw [← hr] at h
  obtain ⟨h1, h2, h3⟩ := h
  simp only [Nat.sub_zero] at h1 h3
  constructor
  · intro hlt
    refine ⟨hlt, ?_, rfl, Nat.zero_le _, ?_, ?_, ?_, ?_⟩
    · show 0 < r.size
      rcases h3 with ⟨h, _⟩ | ⟨_, h, _⟩ <;> omega
    · show k - 0 + r.size ≤ comps.length
      rcases h3 with ⟨_, h, _⟩ | ⟨_, h, _⟩ <;> omega
    · show (chunks + 1) * (cap : Int) + (0 : Nat) = k
      rw [hch]; simp
    · intro i hi; exact h1 i hi
    · rcases h3 with ⟨e1, e2, e3⟩ | ⟨e1, e2, c, e3, e4⟩
      · exact ⟨_, e3, Or.inl ⟨rfl, e1, rfl⟩⟩
      · exact ⟨c, e3, Or.inr ⟨e4, e1, e2⟩⟩
  · intro heq
    rcases h3 with ⟨h, h', _⟩ | ⟨_, h, _⟩ <;> omega

theorem begin_spec {cap : Nat} (hcap : 0 < cap) (comps : List α) :
    (0 < comps.length → At cap comps 0 (begin cap comps).1 (begin cap comps).2) ∧
    (comps.length = 0 → atEnd (begin cap comps).2 = true) := by
  have := fill_spec hcap comps 0 (Nat.zero_le _) ([] : List α) (-1) (by simp) _ rfl
  refine ⟨this.1, ?_⟩
  intro h
  show (_ == 0) = true
  rw [beq_iff_eq]
  exact this.2 h.symm

/-- Incrementing moves to the next component or to the end. -/
theorem incr_spec {cap : Nat} (hcap : 0 < cap) {comps : List α} {k : Nat} {s : Shared α} {it : Iter}
    (h : At cap comps k s it) :
    (k + 1 < comps.length → At cap comps (k + 1) (incr cap comps s it).1 (incr cap comps s it).2) ∧
    (k + 1 = comps.length → atEnd (incr cap comps s it).2 = true) := by
  obtain ⟨h1, h2, h3, h4, h5, h6, h7, c, hc, h8⟩ := h
  unfold incr
  split
  · rename_i hge
    rcases h8 with ⟨e1, e2, e3⟩ | ⟨e1, e2, e3⟩
    · have hkn : c.next = k + 1 := by omega
      have hcall : call cap comps s.ctx s.buf = produce cap (comps.drop (k + 1)) (k + 1) 0 s.buf := by
        unfold call
        rw [hc]
        simp only
        rw [if_pos e1, hkn]
      have hch : (it.chunks + 1) * (cap : Int) = (k + 1 : Nat) := by
        rw [Int.add_mul]; push_cast; omega
      have := fill_spec hcap comps (k + 1) (by omega) s.buf it.chunks hch _ hcall
      refine ⟨this.1, ?_⟩
      intro heq
      show (_ == 0) = true
      rw [beq_iff_eq]
      exact this.2 heq
    · have hcall : call cap comps s.ctx s.buf = ⟨0, s.buf, none⟩ := by
        unfold call
        rw [hc]
        simp only
        rw [if_neg (by omega)]
      refine ⟨fun h => by omega, ?_⟩
      intro _
      rw [hcall]; rfl
  · rename_i hlt
    constructor
    · intro hk
      refine ⟨hk, ?_, ?_, ?_, ?_, ?_, ?_, ?_⟩
      · show it.pos + 1 < it.size; omega
      · show it.slot + 1 = it.pos + 1; omega
      · show it.pos + 1 ≤ k + 1; omega
      · show k + 1 - (it.pos + 1) + it.size ≤ comps.length; omega
      · show (it.chunks * cap + (it.pos + 1 : Nat) : Int) = (k + 1 : Nat); push_cast; omega
      · intro i hi
        show s.buf[i]? = comps[k + 1 - (it.pos + 1) + i]?
        rw [show k + 1 - (it.pos + 1) = k - it.pos by omega]
        exact h7 i hi
      · refine ⟨c, hc, ?_⟩
        show (c.label = 0 ∧ it.size = cap ∧ c.next = k + 1 - (it.pos + 1) + it.size) ∨
          (c.label = 1 ∧ it.size < cap ∧ k + 1 - (it.pos + 1) + it.size = comps.length)
        rw [show k + 1 - (it.pos + 1) = k - it.pos by omega]
        exact h8
    · intro hk; omega

theorem At.deref {cap : Nat} {comps : List α} {k : Nat} {s : Shared α} {it : Iter}
    (h : At cap comps k s it) : deref s it = comps[k]? := by
  have := h.buf it.pos h.pos
  have hle := h.le
  rw [show k - it.pos + it.pos = k by omega] at this
  unfold Iter.deref
  rw [h.slot, this]

theorem collect_from {cap : Nat} (hcap : 0 < cap) {comps : List α} : ∀ (fuel k : Nat) (p : Shared α × Iter),
    At cap comps k p.1 p.2 → comps.length - k ≤ fuel → collect cap comps fuel p = some (comps.drop k) := by
  intro fuel
  induction fuel with
  | zero => intro k p h hf; have := h.lt; omega
  | succ fuel ih =>
    intro k p h hf
    obtain ⟨s, it⟩ := p
    have hne : atEnd it = false := by
      have := h.pos
      simp only at this
      unfold atEnd; simp; omega
    have hd : comps.drop k = comps[k]'h.lt :: comps.drop (k + 1) := List.drop_eq_getElem_cons h.lt
    have hdr : deref s it = some (comps[k]'h.lt) := by rw [h.deref, List.getElem?_eq_getElem h.lt]
    unfold collect
    rw [hne, hdr, hd]
    simp only [Bool.false_eq_true, if_false]
    rcases Nat.lt_or_ge (k + 1) comps.length with hk | hk
    · rw [ih (k + 1) _ ((incr_spec hcap h).1 hk) (by omega)]
    · have hk' : k + 1 = comps.length := by have := h.lt; omega
      have hend := (incr_spec hcap h).2 hk'
      have : collect cap comps fuel (incr cap comps s it) = some [] := by
        generalize incr cap comps s it = q at hend
        obtain ⟨s', it'⟩ := q
        cases fuel <;> (unfold collect; simp only at hend; rw [hend]; rfl)
      rw [this, hk', List.drop_length]

/-- C06. For every buffer capacity, a range-for over the tensor delivers exactly the components, in
order, and stops after them. -/
theorem iterator_delivers (cap : Nat) (hcap : 0 < cap) (comps : List α) :
    collect cap comps comps.length (begin cap comps) = some comps := by
  obtain ⟨h1, h2⟩ := begin_spec hcap comps
  rcases Nat.eq_zero_or_pos comps.length with h0 | h0
  · rw [h0]
    show (if atEnd (begin cap comps).2 then some [] else none) = _
    rw [h2 h0, List.length_eq_zero_iff.1 h0]
    rfl
  · have := collect_from hcap comps.length 0 _ (h1 h0) (by omega)
    rw [this, List.drop_zero]

/-- C06. Iterators that stand at components `j` and `k` compare equal only if `j = k`: the counter that
`operator==` compares is the index of the component. -/
theorem iterator_counter (cap : Nat) {comps : List α} {k : Nat} {s : Shared α} {it : Iter}
    (h : At cap comps k s it) : valsIterated cap it = k := h.vals

/-- `n` increments of the begin iterator. -/
def advance (cap : Nat) (comps : List α) : Nat → Shared α × Iter
  | 0 => begin cap comps
  | n + 1 => incr cap comps (advance cap comps n).1 (advance cap comps n).2

/-- The hypotheses of `iterator_counter` are met by the iterator after any number of increments. -/
theorem advance_at (cap : Nat) (hcap : 0 < cap) (comps : List α) : ∀ n, n < comps.length →
    At cap comps n (advance cap comps n).1 (advance cap comps n).2 := by
  intro n
  induction n with
  | zero => intro h; exact (begin_spec hcap comps).1 h
  | succ n ih => intro h; exact (incr_spec hcap (ih (by omega))).1 h

example : collect 2 [10, 11, 12, 13] 4 (begin 2 [10, 11, 12, 13]) = some [10, 11, 12, 13] := by decide

/-- C06 for `*it++` inside a buffer: the copy still refers to its component. -/
theorem post_increment_partial (cap : Nat) (hcap : 0 < cap) (comps : List α) (n : Nat)
    (h : n + 1 < comps.length) (hin : (n + 1) % cap ≠ 0) :
    postIncrDeref cap comps (advance cap comps n).1 (advance cap comps n).2 = comps[n]? := by
  have hat := advance_at cap hcap comps n (by omega)
  generalize advance cap comps n = p at hat
  obtain ⟨s, it⟩ := p
  unfold postIncrDeref
  have : (incr cap comps s it).1 = s := by
    unfold incr
    split
    · rename_i hge
      exfalso
      obtain ⟨_, h2, h3, h4, h5, h6, _, c, _, h8⟩ := hat
      simp only at *
      rcases h8 with ⟨_, e2, _⟩ | ⟨_, _, e3⟩
      · apply hin
        have : ((n + 1 : Nat) : Int) = (it.chunks + 1) * cap := by
          rw [Int.add_mul]; push_cast; omega
        have : ((n + 1 : Nat) : Int) % (cap : Int) = 0 := by rw [this]; exact Int.mul_emod_left _ _
        omega
      · omega
    · rfl
  rw [this]
  exact hat.deref

/-- C06 is false for the coordinates of `*it++` at the end of a buffer: the copy shares the buffer that
the increment refills, so it yields the coordinates of a component of the next batch. (With the
capacity 100 of the code, this takes a tensor of at least 200 components.) -/
theorem post_increment_fails :
    ∃ (cap : Nat) (comps : List Nat) (n : Nat), 0 < cap ∧ n + 1 < comps.length ∧
      postIncrDeref cap comps (advance cap comps n).1 (advance cap comps n).2 ≠ comps[n]? :=
  ⟨2, [10, 11, 12, 13], 1, by decide, by decide, by decide⟩

end Verif.Iter
