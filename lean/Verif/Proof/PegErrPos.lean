import Verif.Spec.ParseError
/-! # Positions of the detailed machine -/
namespace Verif.Proof
open Verif Verif.Spec

theorem rune_nl (x : Sym) : x.rune = '\n' ↔ x = .ok '\n' := by
  cases x with
  | ok c => simp [Sym.rune]
  | bad b => simp [Sym.rune]

theorem throughNewline_snoc_nl (l : List Sym) : throughNewline (l ++ [.ok '\n']) = l.length + 1 := by
  simp [throughNewline]

theorem throughNewline_snoc (l : List Sym) (x : Sym) (h : x ≠ .ok '\n') : throughNewline (l ++ [x]) = throughNewline l := by
  simp [throughNewline, h]

theorem throughNewline_append (l m : List Sym) (h : .ok '\n' ∉ m) : throughNewline (l ++ m) = throughNewline l := by
  induction m generalizing l with
  | nil => simp
  | cons x m ih =>
    simp only [List.mem_cons, not_or] at h
    have e : l ++ x :: m = (l ++ [x]) ++ m := by simp
    rw [e, ih _ h.2, throughNewline_snoc _ _ fun k => h.1 k.symm]

theorem throughNewline_le (l : List Sym) : throughNewline l ≤ l.length := by
  unfold throughNewline
  have := (List.dropWhile_suffix (l := l.reverse) fun x => decide (x ≠ .ok '\n')).length_le
  simpa using this

theorem take_succ_append (pre : List Sym) (x : Sym) (l : List Sym) : (pre ++ x :: l).take (pre.length + 1) = pre ++ [x] := by
  rw [List.take_append, List.take_of_length_le (by omega)]
  simp

theorem place_at (pre rest : List Sym) : place (pre ++ rest) pre.length =
    match rest with
    | x :: _ => if x.rune = '\n' then ⟨2 + pre.count (.ok '\n'), 0, (pre.map Sym.width).sum⟩
        else ⟨1 + pre.count (.ok '\n'), pre.length + 1 - throughNewline pre, (pre.map Sym.width).sum⟩
    | [] => ⟨1 + pre.count (.ok '\n'), pre.length + 1 - throughNewline pre, (pre.map Sym.width).sum⟩ := by
  cases rest with
  | nil => simp [place, List.take_of_length_le]
  | cons x l =>
    simp only [place, take_succ_append, rune_nl]
    have h : (pre ++ x :: l).take pre.length = pre := by simp
    rw [h]
    by_cases hx : x = .ok '\n'
    · subst hx
      rw [if_pos rfl, throughNewline_snoc_nl]
      simp [List.count_append]; omega
    · rw [if_neg hx, throughNewline_snoc _ _ hx]
      simp [List.count_append, hx]

/-- The savepoint is at a place of the data. -/
def PtAt (data : List Sym) (pt : Pt) : Prop := ∃ pre, data = pre ++ pt.rest ∧ pt.pos = place data pre.length

theorem ptAt_advance {data pt} (h : PtAt data pt) (hne : pt.rest ≠ []) : PtAt data pt.advance := by
  obtain ⟨⟨l, c, o⟩, rest⟩ := pt
  obtain ⟨pre, rfl, hp⟩ := h
  simp only at hp hne
  cases rest with
  | nil => exact absurd rfl hne
  | cons x rest =>
    have hr : (Pt.advance ⟨⟨l, c, o⟩, x :: rest⟩).rest = rest := by
      unfold Pt.advance; simp only [List.tail_cons]; cases rest with
      | nil => rfl
      | cons y r => simp only []; split <;> rfl
    refine ⟨pre ++ [x], by rw [hr]; simp, ?_⟩
    have e : pre ++ x :: rest = (pre ++ [x]) ++ rest := by simp
    rw [place_at] at hp
    simp only at hp
    simp only [e]
    rw [place_at (pre ++ [x]) rest]
    have hle := throughNewline_le pre
    have hcol : c + 1 = (pre ++ [x]).length + 1 - throughNewline (pre ++ [x]) ∧ l = 1 + (pre ++ [x]).count (.ok '\n') ∧
        o + x.width = ((pre ++ [x]).map Sym.width).sum := by
      by_cases hx : x = .ok '\n'
      · subst hx
        rw [if_pos ((rune_nl _).2 rfl)] at hp
        obtain ⟨rfl, rfl, rfl⟩ := (Position.mk.injEq ..).mp hp
        rw [throughNewline_snoc_nl]
        simp [List.count_append]; omega
      · rw [if_neg (fun k => hx ((rune_nl _).1 k))] at hp
        obtain ⟨rfl, rfl, rfl⟩ := (Position.mk.injEq ..).mp hp
        rw [throughNewline_snoc _ _ hx]
        simp [List.count_append, hx]; omega
    obtain ⟨h1, h2, h3⟩ := hcol
    unfold Pt.advance
    simp only [List.tail_cons]
    rw [← h3, ← h1, h2]
    cases rest with
    | nil => rfl
    | cons y r =>
      simp only []
      split
      · simp only [Position.mk.injEq, and_true, true_and]; omega
      · rfl

theorem width_pos (x : Sym) : 0 < x.width := by
  cases x with
  | ok c => exact Char.utf8Size_pos c
  | bad b => exact Nat.one_pos

theorem widths_inj {pre pre' rest rest' : List Sym} (h : pre ++ rest = pre' ++ rest') (hw : (pre.map Sym.width).sum = (pre'.map Sym.width).sum) :
    pre = pre' := by
  induction pre generalizing pre' with
  | nil =>
    cases pre' with
    | nil => rfl
    | cons x l => have := width_pos x; simp at hw; omega
  | cons x l ih =>
    cases pre' with
    | nil => have := width_pos x; simp at hw; omega
    | cons y l' =>
      simp only [List.cons_append, List.cons.injEq] at h
      obtain ⟨rfl, h⟩ := h
      simp only [List.map_cons, List.sum_cons, Nat.add_left_cancel_iff] at hw
      rw [ih h hw]

theorem place_offset (pre rest : List Sym) : (place (pre ++ rest) pre.length).offset = (pre.map Sym.width).sum := by
  simp [place]

theorem ptAt_unique {data p q} (hp : PtAt data p) (hq : PtAt data q) (h : p.pos.offset = q.pos.offset) : p = q := by
  obtain ⟨pre, e, hp⟩ := hp
  obtain ⟨pre', e', hq⟩ := hq
  have o1 : p.pos.offset = (pre.map Sym.width).sum := by rw [hp, e, place_offset]
  have o2 : q.pos.offset = (pre'.map Sym.width).sum := by rw [hq, e', place_offset]
  have : pre = pre' := widths_inj (e ▸ e') (by omega)
  subst this
  have : p.rest = q.rest := List.append_cancel_left (e ▸ e')
  cases p; cases q; simp_all

/-- A shorter rest is a greater offset. -/
theorem ptAt_le {data p q} (hp : PtAt data p) (hq : PtAt data q) : p.pos.offset ≤ q.pos.offset ↔ q.rest.length ≤ p.rest.length := by
  obtain ⟨pre, e, hp⟩ := hp
  obtain ⟨pre', e', hq⟩ := hq
  have o1 : p.pos.offset = (pre.map Sym.width).sum := by rw [hp, e, place_offset]
  have o2 : q.pos.offset = (pre'.map Sym.width).sum := by rw [hq, e', place_offset]
  have hlen : pre.length + p.rest.length = pre'.length + q.rest.length := by
    rw [← List.length_append, ← List.length_append, ← e, ← e']
  have key : ∀ {a b c d : List Sym}, a ++ b = c ++ d → a.length ≤ c.length → (a.map Sym.width).sum ≤ (c.map Sym.width).sum := by
    intro a b c d h hl
    have : c = a ++ c.drop a.length := by
      have := congrArg (List.take a.length) h
      rw [List.take_append_of_le_length (Nat.le_refl _), List.take_append_of_le_length hl, List.take_length] at this
      conv => lhs; rw [← List.take_append_drop a.length c, ← this]
    rw [this]; simp
  constructor
  · intro h
    rcases Nat.lt_or_ge pre'.length pre.length with k | k
    · have := key (e' ▸ e) (Nat.le_of_lt k)
      have := widths_inj (e ▸ e') (by omega)
      rw [this] at k; omega
    · omega
  · intro h
    rw [o1, o2]
    exact key (e ▸ e') (by omega)

theorem place_lt {data : List Sym} {i j : Nat} (hij : i < j) (hj : j ≤ data.length) :
    (place data i).offset < (place data j).offset ∧
    ((place data i).line < (place data j).line ∨ (place data i).line = (place data j).line ∧ (place data i).col < (place data j).col) := by
  constructor
  · obtain ⟨d, rfl⟩ : ∃ d, j = i + (d + 1) := ⟨j - i - 1, by omega⟩
    have e : data.take (i + (d + 1)) = data.take i ++ (data.drop i).take (d + 1) := by rw [List.take_add]
    simp only [place, e, List.map_append, List.sum_append]
    cases hd : data.drop i with
    | nil => have := congrArg List.length hd; simp at this; omega
    | cons x r => have := width_pos x; simp; omega
  · obtain ⟨d, rfl⟩ : ∃ d, j = i + d := ⟨j - i, by omega⟩
    have e : data.take (i + d + 1) = data.take (i + 1) ++ (data.drop (i + 1)).take d := by
      rw [← List.take_add]; congr 1; omega
    simp only [place, e]
    by_cases hm : .ok '\n' ∈ (data.drop (i + 1)).take d
    · left
      have := List.count_pos_iff.2 hm
      rw [List.count_append]
      omega
    · right
      rw [throughNewline_append _ _ hm, List.count_append, List.count_eq_zero.2 hm]
      refine ⟨rfl, ?_⟩
      have := throughNewline_le (data.take (i + 1))
      simp only [List.length_take] at this
      omega

end Verif.Proof
