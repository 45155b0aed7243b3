import Verif.Props.DumpVars

/-! Lemmas for Props/Dump: reading back what was written. -/

noncomputable section

namespace X7.Dump

mutual
/-- The text of an expression, as the code writes it: arguments and tuples separated by commas, elements of lists each followed
by a comma. -/
def toks : Expr → List Tok
  | .name s => [.id s]
  | .str s => [.str s]
  | .num x => [.num x]
  | .int n => [.int n]
  | .call f args => .id f :: .lp :: (sepToks args ++ [.rp])
  | .list l => .lb :: (endToks l ++ [.rb])
  | .tuple l => .lp :: (tupToks l ++ [.rp])
  | .kw k e => .id k :: .eq :: toks e
  | .dict l => .lc :: (sepToks l ++ [.rc])
  | .item k e => .str k :: .colon :: toks e
/-- Separated by commas. -/
def sepToks : List Expr → List Tok
  | [] => []
  | [e] => toks e
  | e :: rest => toks e ++ .comma :: sepToks rest
/-- Each followed by a comma. -/
def endToks : List Expr → List Tok
  | [] => []
  | e :: rest => toks e ++ .comma :: endToks rest
/-- Separated by commas, a single one followed by a comma. -/
def tupToks : List Expr → List Tok
  | [] => []
  | [e] => toks e ++ [.comma]
  | e :: rest => toks e ++ .comma :: sepToks rest
end

/-- What may follow an expression. -/
def Stop (rest : List Tok) : Prop := rest.head? ≠ some .lp ∧ rest.head? ≠ some .eq ∧ rest.head? ≠ some .colon

theorem toks_head (e : Expr) : ∃ t r, toks e = t :: r ∧ t ≠ .rp ∧ t ≠ .rb ∧ t ≠ .rc := by
  cases e <;> simp [toks]

theorem parse_name {n : ℕ} {s : Str} {rest : List Tok} (h : Stop rest) : parse (n + 1) (.id s :: rest) = some (.name s, rest) := by
  cases rest with
  | nil => simp [parse]
  | cons t r =>
    cases t <;> simp_all [parse, Stop]

theorem parse_str {n : ℕ} {s : Str} {rest : List Tok} (h : Stop rest) : parse (n + 1) (.str s :: rest) = some (.str s, rest) := by
  cases rest with
  | nil => simp [parse]
  | cons t r =>
    cases t <;> simp_all [parse, Stop]

theorem stop_comma (r : List Tok) : Stop (.comma :: r) := by simp [Stop]
theorem stop_rp (r : List Tok) : Stop (.rp :: r) := by simp [Stop]
theorem stop_rb (r : List Tok) : Stop (.rb :: r) := by simp [Stop]
theorem stop_close {close : Tok} (h : close = .rp ∨ close = .rb ∨ close = .rc) (r : List Tok) : Stop (close :: r) := by
  rcases h with rfl | rfl | rfl
  · exact stop_rp r
  · exact stop_rb r
  · simp [Stop]

/-- One step of `parseSeq` over an expression that is followed by a comma. -/
theorem parseSeq_comma {n : ℕ} {close : Tok} (hc : close = .rp ∨ close = .rb ∨ close = .rc) {e : Expr} {r : List Tok}
    (he : parse n (toks e ++ .comma :: r) = some (e, .comma :: r)) :
    parseSeq (n + 1) close (toks e ++ .comma :: r) =
      match parseSeq n close r with
      | some (l, b, r) => some (e :: l, b || l.isEmpty, r)
      | none => none := by
  obtain ⟨t, r', ht, h1, h2, h3⟩ := toks_head e
  rw [ht, List.cons_append] at he ⊢
  rw [parseSeq, if_neg (by rcases hc with rfl | rfl | rfl <;> assumption), he]
  rfl

theorem parseSeq_last {n : ℕ} {close : Tok} (hc : close = .rp ∨ close = .rb ∨ close = .rc) {e : Expr} {r : List Tok}
    (he : parse n (toks e ++ close :: r) = some (e, close :: r)) :
    parseSeq (n + 1) close (toks e ++ close :: r) = some ([e], false, r) := by
  obtain ⟨t, r', ht, h1, h2, h3⟩ := toks_head e
  rw [ht, List.cons_append] at he ⊢
  rw [parseSeq, if_neg (by rcases hc with rfl | rfl | rfl <;> assumption), he]
  rcases hc with rfl | rfl | rfl <;> simp

theorem parseSeq_nil {n : ℕ} {close : Tok} {r : List Tok} : parseSeq (n + 1) close (close :: r) = some ([], false, r) := by
  rw [parseSeq, if_pos rfl]

mutual
/-- Reading gives back the expression. -/
theorem parse_toks : (e : Expr) → ∀ (n : ℕ) (rest : List Tok), (toks e).length ≤ n → Stop rest →
    parse n (toks e ++ rest) = some (e, rest)
  | .name s => by
    intro n rest hn hs
    obtain ⟨n, rfl⟩ : ∃ m, n = m + 1 := ⟨n - 1, by simp [toks] at hn; omega⟩
    exact parse_name hs
  | .str s => by
    intro n rest hn hs
    obtain ⟨n, rfl⟩ : ∃ m, n = m + 1 := ⟨n - 1, by simp [toks] at hn; omega⟩
    exact parse_str hs
  | .num x => by
    intro n rest hn hs
    obtain ⟨n, rfl⟩ : ∃ m, n = m + 1 := ⟨n - 1, by simp [toks] at hn; omega⟩
    simp [toks, parse]
  | .int k => by
    intro n rest hn hs
    obtain ⟨n, rfl⟩ : ∃ m, n = m + 1 := ⟨n - 1, by simp [toks] at hn; omega⟩
    simp [toks, parse]
  | .call f args => by
    intro n rest hn hs
    simp only [toks, List.length_cons, List.length_append, List.length_nil] at hn
    obtain ⟨n, rfl⟩ : ∃ m, n = m + 1 := ⟨n - 1, by omega⟩
    have h := parse_sep args n .rp rest (by omega) (Or.inl rfl)
    simp only [toks, List.cons_append, List.append_assoc, List.nil_append, parse]
    rw [h]
  | .list l => by
    intro n rest hn hs
    simp only [toks, List.length_cons, List.length_append, List.length_nil] at hn
    obtain ⟨n, rfl⟩ : ∃ m, n = m + 1 := ⟨n - 1, by omega⟩
    obtain ⟨b, h⟩ := parse_end l n .rb rest (by omega) (Or.inr (Or.inl rfl))
    simp only [toks, List.cons_append, List.append_assoc, List.nil_append, parse]
    rw [h]
  | .tuple [] => by
    intro n rest hn hs
    simp only [toks, tupToks, List.length_cons, List.nil_append, List.length_nil] at hn
    obtain ⟨n, rfl⟩ : ∃ m, n = m + 2 := ⟨n - 2, by omega⟩
    simp only [toks, tupToks, List.cons_append, List.nil_append, parse]
    rw [parseSeq_nil]
  | .tuple [e] => by
    intro n rest hn hs
    simp only [toks, tupToks, List.length_cons, List.length_append, List.length_nil] at hn
    obtain ⟨n, rfl⟩ : ∃ m, n = m + 3 := ⟨n - 3, by omega⟩
    simp only [toks, tupToks, List.cons_append, List.nil_append, List.append_assoc, parse]
    rw [parseSeq_comma (Or.inl rfl) (parse_toks e _ _ (by omega) (stop_comma _)), parseSeq_nil]
    simp
  | .tuple (e :: e' :: l) => by
    intro n rest hn hs
    simp only [toks, tupToks, List.length_cons, List.length_append, List.length_nil] at hn
    obtain ⟨n, rfl⟩ : ∃ m, n = m + 2 := ⟨n - 2, by omega⟩
    have h := parse_sep (e' :: l) n .rp rest (by omega) (Or.inl rfl)
    simp only [toks, tupToks, List.cons_append, List.nil_append, List.append_assoc, parse]
    rw [parseSeq_comma (Or.inl rfl) (parse_toks e _ _ (by omega) (stop_comma _)), h]
  | .kw k e => by
    intro n rest hn hs
    simp only [toks, List.length_cons] at hn
    obtain ⟨n, rfl⟩ : ∃ m, n = m + 1 := ⟨n - 1, by omega⟩
    have h := parse_toks e n rest (by omega) hs
    simp only [toks, List.cons_append, parse]
    rw [h]
  | .dict l => by
    intro n rest hn hs
    simp only [toks, List.length_cons, List.length_append, List.length_nil] at hn
    obtain ⟨n, rfl⟩ : ∃ m, n = m + 1 := ⟨n - 1, by omega⟩
    have h := parse_sep l n .rc rest (by omega) (Or.inr (Or.inr rfl))
    simp only [toks, List.cons_append, List.append_assoc, List.nil_append, parse]
    rw [h]
  | .item k e => by
    intro n rest hn hs
    simp only [toks, List.length_cons] at hn
    obtain ⟨n, rfl⟩ : ∃ m, n = m + 1 := ⟨n - 1, by omega⟩
    have h := parse_toks e n rest (by omega) hs
    simp only [toks, List.cons_append, parse]
    rw [h]
theorem parse_sep : (l : List Expr) → ∀ (n : ℕ) (close : Tok) (rest : List Tok), (sepToks l).length + 1 ≤ n →
    (close = .rp ∨ close = .rb ∨ close = .rc) → parseSeq n close (sepToks l ++ close :: rest) = some (l, false, rest)
  | [] => by
    intro n close rest hn hc
    obtain ⟨n, rfl⟩ : ∃ m, n = m + 1 := ⟨n - 1, by omega⟩
    exact parseSeq_nil
  | [e] => by
    intro n close rest hn hc
    obtain ⟨n, rfl⟩ : ∃ m, n = m + 1 := ⟨n - 1, by omega⟩
    simp only [sepToks] at hn ⊢
    exact parseSeq_last hc (parse_toks e _ _ (by omega) (stop_close hc _))
  | e :: e' :: l => by
    intro n close rest hn hc
    obtain ⟨n, rfl⟩ : ∃ m, n = m + 1 := ⟨n - 1, by omega⟩
    have hs : sepToks (e :: e' :: l) = toks e ++ .comma :: sepToks (e' :: l) := by simp [sepToks]
    rw [hs] at hn
    simp only [List.length_append, List.length_cons] at hn
    have h := parse_sep (e' :: l) n close rest (by omega) hc
    rw [hs, List.append_assoc, List.cons_append, parseSeq_comma hc (parse_toks e _ _ (by omega) (stop_comma _)), h]
    simp
theorem parse_end : (l : List Expr) → ∀ (n : ℕ) (close : Tok) (rest : List Tok), (endToks l).length + 1 ≤ n →
    (close = .rp ∨ close = .rb ∨ close = .rc) → ∃ b, parseSeq n close (endToks l ++ close :: rest) = some (l, b, rest)
  | [] => by
    intro n close rest hn hc
    obtain ⟨n, rfl⟩ : ∃ m, n = m + 1 := ⟨n - 1, by omega⟩
    exact ⟨false, parseSeq_nil⟩
  | e :: l => by
    intro n close rest hn hc
    obtain ⟨n, rfl⟩ : ∃ m, n = m + 1 := ⟨n - 1, by omega⟩
    simp only [endToks, List.length_append, List.length_cons] at hn
    obtain ⟨b, h⟩ := parse_end l n close rest (by omega) hc
    refine ⟨b || l.isEmpty, ?_⟩
    simp only [endToks, List.append_assoc, List.cons_append]
    rw [parseSeq_comma hc (parse_toks e _ _ (by omega) (stop_comma _)), h]
end

theorem parseAll_toks (e : Expr) : parseAll (toks e) = some e := by
  unfold parseAll
  have := parse_toks e (toks e).length [] le_rfl (by simp [Stop])
  rw [List.append_nil] at this
  rw [this]

end X7.Dump
