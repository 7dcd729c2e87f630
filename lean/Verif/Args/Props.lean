import Verif.Args.Model
import Mathlib.Tactic.Common

/-! # C56: command-line arguments -/

namespace ReactorC.Args

/-! ## Specification -/

/-- The units of time, by the characters they begin with, and their size in nanoseconds. -/
def unitTable : List (Str × Int) :=
  [("nsec".toList, 1), ("usec".toList, 1000), ("msec".toList, 1000000), ("sec".toList, 1000000000),
   ("min".toList, 60000000000), ("hour".toList, 3600000000000), ("day".toList, 86400000000000),
   ("week".toList, 604800000000000)]

/-- `u` names a unit of `f` nanoseconds. -/
def Unit (u : Str) (f : Int) : Prop := ∃ p, (p, f) ∈ unitTable ∧ p <+: u

/-- The numeral is taken as a number: it denotes one that is not zero, or begins with the digit 0. -/
def Numeral (n : Str) : Prop := atoll n ≠ 0 ∨ "0".toList <+: n

/-- The command lines accepted and what they do to the parameters. -/
inductive Accepts (cfg : Config) : List Str → Settings → Settings → Prop
  | done (s : Settings) : Accepts cfg [] s s
  | fast (s t : Settings) (o : Str) (b : Bool) (rest : List Str) : o ∈ ["-f".toList, "--fast".toList] →
      Accepts cfg rest { s with fast := b } t →
      Accepts cfg (o :: (if b then "true".toList else "false".toList) :: rest) s t
  /-- a wrong value is reported and ignored -/
  | fastWrong (s t : Settings) (o v : Str) (rest : List Str) : o ∈ ["-f".toList, "--fast".toList] →
      v ∉ ["true".toList, "false".toList] → Accepts cfg rest s t → Accepts cfg (o :: v :: rest) s t
  | timeout (s t : Settings) (o n u : Str) (f : Int) (rest : List Str) :
      o ∈ ["-o".toList, "--timeout".toList, "-timeout".toList] → Numeral n → Unit u f →
      Accepts cfg rest { s with duration := f * atoll n } t → Accepts cfg (o :: n :: u :: rest) s t
  | keepalive (s t : Settings) (o : Str) (b : Bool) (rest : List Str) : o ∈ ["-k".toList, "--keepalive".toList] →
      Accepts cfg rest { s with keepalive := b } t →
      Accepts cfg (o :: (if b then "true".toList else "false".toList) :: rest) s t
  | keepaliveWrong (s t : Settings) (o v : Str) (rest : List Str) : o ∈ ["-k".toList, "--keepalive".toList] →
      v ∉ ["true".toList, "false".toList] → Accepts cfg rest s t → Accepts cfg (o :: v :: rest) s t
  | workers (s t : Settings) (o n : Str) (rest : List Str) : o ∈ ["-w".toList, "--workers".toList] →
      Accepts cfg rest { s with workers := max 1 (atoll n) } t → Accepts cfg (o :: n :: rest) s t
  | id (s t : Settings) (o v : Str) (rest : List Str) : cfg.federated = true → o ∈ ["-i".toList, "--id".toList] →
      Accepts cfg rest { s with federation := v } t → Accepts cfg (o :: v :: rest) s t
  | rti (s t : Settings) (o v : Str) (rest : List Str) : cfg.federated = true → o ∈ ["-r".toList, "--rti".toList] →
      cfg.rtiOk v = true → Accepts cfg rest { s with rti := v } t → Accepts cfg (o :: v :: rest) s t
  | ros (s t : Settings) (rest : List Str) : Accepts cfg rest s t → Accepts cfg ("--ros-args".toList :: rest) s t

/-! ## Lemmas -/

theorem startsWith_iff (s p : Str) : startsWith s p = true ↔ p <+: s := by
  simp [startsWith]

theorem prefix_clash {p q u : Str} (hp : p <+: u) (hq : q <+: u) : p <+: q ∨ q <+: p :=
  List.prefix_or_prefix_of_prefix hp hq

theorem not_start {u p : Str} (hp : p <+: u) (q : Str) (h : ¬ (p <+: q ∨ q <+: p)) : ¬ startsWith u q = true := by
  rw [startsWith_iff]; exact fun hq => h (prefix_clash hp hq)

theorem scale_iff (d : Int) (u : Str) (r : Int) : scale d u = some r ↔ ∃ f, Unit u f ∧ r = f * d := by
  constructor
  · intro h
    unfold scale at h
    split at h
    · rename_i hc; exact ⟨1000000000, ⟨_, by simp [unitTable], (startsWith_iff _ _).1 hc⟩, by simpa using h.symm⟩
    split at h
    · rename_i hc; exact ⟨1000000, ⟨_, by simp [unitTable], (startsWith_iff _ _).1 hc⟩, by simpa using h.symm⟩
    split at h
    · rename_i hc; exact ⟨1000, ⟨_, by simp [unitTable], (startsWith_iff _ _).1 hc⟩, by simpa using h.symm⟩
    split at h
    · rename_i hc; exact ⟨1, ⟨_, by simp [unitTable], (startsWith_iff _ _).1 hc⟩, by simpa using h.symm⟩
    split at h
    · rename_i hc; exact ⟨60000000000, ⟨_, by simp [unitTable], (startsWith_iff _ _).1 hc⟩, by simpa using h.symm⟩
    split at h
    · rename_i hc; exact ⟨3600000000000, ⟨_, by simp [unitTable], (startsWith_iff _ _).1 hc⟩, by simpa using h.symm⟩
    split at h
    · rename_i hc; exact ⟨86400000000000, ⟨_, by simp [unitTable], (startsWith_iff _ _).1 hc⟩, by simpa using h.symm⟩
    split at h
    · rename_i hc; exact ⟨604800000000000, ⟨_, by simp [unitTable], (startsWith_iff _ _).1 hc⟩, by simpa using h.symm⟩
    · simp at h
  · rintro ⟨f, ⟨p, hm, hp⟩, rfl⟩
    simp only [unitTable, List.mem_cons, List.not_mem_nil, or_false, Prod.mk.injEq] at hm
    unfold scale
    rcases hm with ⟨rfl, rfl⟩ | ⟨rfl, rfl⟩ | ⟨rfl, rfl⟩ | ⟨rfl, rfl⟩ | ⟨rfl, rfl⟩ | ⟨rfl, rfl⟩ | ⟨rfl, rfl⟩ | ⟨rfl, rfl⟩ <;>
      (have hs := (startsWith_iff _ _).2 hp
       repeat (first | rw [if_pos hs] | rw [if_neg (not_start hp _ (by decide))]))
    simp

theorem drop_cons {argv : List Str} {i : Nat} {a : Str} {l : List Str} (h : argv.drop i = a :: l) :
    argv[i]? = some a ∧ argv.drop (i + 1) = l ∧ i < argv.length := by
  have hi : i < argv.length := by
    by_contra hc
    rw [List.drop_eq_nil_of_le (by omega)] at h
    simp at h
  refine ⟨?_, ?_, hi⟩
  · rw [← List.head?_drop, h]; rfl
  · rw [← List.tail_drop, h]; rfl

/-- What `process` does, by the remaining arguments. -/
theorem process_spec (cfg : Config) (argv : List Str) (fuel i : Nat) (s : Settings) (hf : argv.length ≤ i + fuel) :
    process cfg argv fuel i s ≠ .fault ∧
    ∀ t, process cfg argv fuel i s = .accepted t → Accepts cfg (argv.drop i) s t := by
  induction fuel generalizing i s with
  | zero =>
    unfold process
    rw [if_pos (by omega), List.drop_eq_nil_of_le (by omega)]
    exact ⟨by simp, fun t h => by simp at h; subst h; exact .done s⟩
  | succ fuel ih =>
    unfold process
    by_cases hi : argv.length ≤ i
    · rw [if_pos hi, List.drop_eq_nil_of_le hi]
      exact ⟨by simp, fun t h => by simp at h; subst h; exact .done s⟩
    rw [if_neg hi]
    cases hd : argv.drop i with
    | nil => have := List.drop_eq_nil_iff.1 hd; omega
    | cons arg rest =>
      obtain ⟨h0, h1, _⟩ := drop_cons hd
      rw [h0]
      dsimp only
      have two : ¬ argv.length < i + 2 → ∃ v r, rest = v :: r ∧ argv[i + 1]? = some v ∧ argv.drop (i + 2) = r := by
        intro hlt
        cases rest with
        | nil => have := List.drop_eq_nil_iff.1 h1; omega
        | cons v r => obtain ⟨g1, g2, _⟩ := drop_cons h1; exact ⟨v, r, rfl, g1, g2⟩
      have ih2 := fun s => ih (i + 2) s (by omega)
      split
      · rename_i ho
        split
        · exact ⟨by simp, fun t h => by simp at h⟩
        · rename_i hlt
          obtain ⟨v, r, rfl, hv, hr⟩ := two hlt
          rw [hv]; dsimp only
          split
          · rename_i hv'
            have := ih2 { s with fast := true }
            rw [hr] at this
            exact ⟨this.1, fun t h => by rw [hv']; exact .fast s t arg true r (by simpa using ho) (this.2 t h)⟩
          · split
            · rename_i hv'
              have := ih2 { s with fast := false }
              rw [hr] at this
              exact ⟨this.1, fun t h => by rw [hv']; exact .fast s t arg false r (by simpa using ho) (this.2 t h)⟩
            · rename_i hv1 hv2
              have := ih2 s
              rw [hr] at this
              exact ⟨this.1, fun t h => .fastWrong s t arg v r (by simpa using ho)
                (by simp only [List.mem_cons, List.not_mem_nil, or_false, not_or]; exact ⟨hv1, hv2⟩) (this.2 t h)⟩
      split
      · rename_i _ ho
        split
        · exact ⟨by simp, fun t h => by simp at h⟩
        · rename_i hlt
          obtain ⟨v, r, rfl, hv, hr⟩ := two (by omega)
          cases r with
          | nil => have := List.drop_eq_nil_iff.1 hr; omega
          | cons u r =>
            obtain ⟨g1, g2, _⟩ := drop_cons hr
            rw [hv, g1]; dsimp only
            split
            · exact ⟨by simp, fun t h => by simp at h⟩
            · rename_i hnum
              split
              · exact ⟨by simp, fun t h => by simp at h⟩
              · rename_i d hd'
                have := ih (i + 3) { s with duration := d } (by omega)
                rw [g2] at this
                obtain ⟨f, hu, rfl⟩ := (scale_iff _ _ _).1 hd'
                refine ⟨this.1, fun t h => .timeout s t arg v u f r (by simpa using ho) ?_ hu (this.2 t h)⟩
                by_cases hz : atoll v = 0
                · right
                  rw [← startsWith_iff]
                  by_contra hc
                  exact hnum ⟨hz, by simpa using hc⟩
                · exact Or.inl hz
      split
      · rename_i _ _ ho
        split
        · exact ⟨by simp, fun t h => by simp at h⟩
        · rename_i hlt
          obtain ⟨v, r, rfl, hv, hr⟩ := two hlt
          rw [hv]; dsimp only
          split
          · rename_i hv'
            have := ih2 { s with keepalive := true }
            rw [hr] at this
            exact ⟨this.1, fun t h => by rw [hv']; exact .keepalive s t arg true r (by simpa using ho) (this.2 t h)⟩
          · split
            · rename_i hv'
              have := ih2 { s with keepalive := false }
              rw [hr] at this
              exact ⟨this.1, fun t h => by rw [hv']; exact .keepalive s t arg false r (by simpa using ho) (this.2 t h)⟩
            · rename_i hv1 hv2
              have := ih2 s
              rw [hr] at this
              exact ⟨this.1, fun t h => .keepaliveWrong s t arg v r (by simpa using ho)
                (by simp only [List.mem_cons, List.not_mem_nil, or_false, not_or]; exact ⟨hv1, hv2⟩) (this.2 t h)⟩
      split
      · rename_i _ _ _ ho
        split
        · exact ⟨by simp, fun t h => by simp at h⟩
        · rename_i hlt
          obtain ⟨v, r, rfl, hv, hr⟩ := two hlt
          rw [hv]; dsimp only
          have := ih2 { s with workers := if atoll v ≤ 0 then 1 else atoll v }
          rw [hr] at this
          refine ⟨this.1, fun t h => .workers s t arg v r (by simpa using ho) ?_⟩
          have hmax : max 1 (atoll v) = if atoll v ≤ 0 then 1 else atoll v := by split <;> omega
          rw [hmax]; exact this.2 t h
      split
      · rename_i _ _ _ _ ho
        split
        · exact ⟨by simp, fun t h => by simp at h⟩
        · rename_i hlt
          obtain ⟨v, r, rfl, hv, hr⟩ := two hlt
          rw [hv]; dsimp only
          have := ih2 { s with federation := v }
          rw [hr] at this
          exact ⟨this.1, fun t h => .id s t arg v r ho.1 (by simpa using ho.2) (this.2 t h)⟩
      split
      · rename_i _ _ _ _ _ ho
        split
        · exact ⟨by simp, fun t h => by simp at h⟩
        · rename_i hlt
          obtain ⟨v, r, rfl, hv, hr⟩ := two hlt
          rw [hv]; dsimp only
          split
          · rename_i hok
            have := ih2 { s with rti := v }
            rw [hr] at this
            exact ⟨this.1, fun t h => .rti s t arg v r ho.1 (by simpa using ho.2) hok (this.2 t h)⟩
          · exact ⟨by simp, fun t h => by simp at h⟩
      split
      · rename_i ho
        have := ih (i + 1) s (by omega)
        rw [h1] at this
        subst ho
        exact ⟨this.1, fun t h => .ros s t rest (this.2 t h)⟩
      · exact ⟨by simp, fun t h => by simp at h⟩

/-- The accepted command lines are accepted. -/
theorem process_accepts (cfg : Config) (argv : List Str) {args : List Str} {s t : Settings} (h : Accepts cfg args s t) :
    ∀ fuel i, argv.drop i = args → argv.length ≤ i + fuel → process cfg argv fuel i s = .accepted t := by
  have opt : ∀ {o v : Str} {r : List Str} {i fuel : Nat}, argv.drop i = o :: v :: r → argv.length ≤ i + fuel →
      ∃ fuel', fuel = fuel' + 1 ∧ ¬ argv.length ≤ i ∧ argv[i]? = some o ∧ argv[i + 1]? = some v ∧
        ¬ argv.length < i + 2 ∧ argv.drop (i + 2) = r ∧ argv.length ≤ (i + 2) + fuel' := by
    intro o v r i fuel hd hf
    obtain ⟨h0, h1, h2⟩ := drop_cons hd
    obtain ⟨h3, h4, h5⟩ := drop_cons h1
    exact ⟨fuel - 1, by omega, by omega, h0, h3, by omega, h4, by omega⟩
  induction h with
  | done s =>
    intro fuel i hd hf
    have := List.drop_eq_nil_iff.1 hd
    cases fuel <;> simp [process, this]
  | fast s t o b rest ho _ ih =>
    intro fuel i hd hf
    obtain ⟨fuel, rfl, h0, h1, h2, h3, h4, h5⟩ := opt hd hf
    have ih := ih fuel (i + 2) h4 h5
    simp only [List.mem_cons, List.not_mem_nil, or_false] at ho
    unfold process
    rw [if_neg h0, h1]
    dsimp only
    rw [if_pos ho, if_neg h3, h2]
    dsimp only
    cases b with
    | true => rw [if_pos (by decide)]; exact ih
    | false => rw [if_neg (by decide), if_pos (by decide)]; exact ih
  | fastWrong s t o v rest ho hv _ ih =>
    intro fuel i hd hf
    obtain ⟨fuel, rfl, h0, h1, h2, h3, h4, h5⟩ := opt hd hf
    have ih := ih fuel (i + 2) h4 h5
    simp only [List.mem_cons, List.not_mem_nil, or_false, not_or] at ho hv
    unfold process
    rw [if_neg h0, h1]
    dsimp only
    rw [if_pos ho, if_neg h3, h2]
    dsimp only
    rw [if_neg hv.1, if_neg hv.2]; exact ih
  | timeout s t o n u f rest ho hn hu _ ih =>
    intro fuel i hd hf
    obtain ⟨fuel, rfl, h0, h1, h2, h3, h4, h5⟩ := opt hd hf
    obtain ⟨h6, h7, h8⟩ := drop_cons h4
    have ih := ih fuel (i + 3) h7 (by omega)
    simp only [List.mem_cons, List.not_mem_nil, or_false] at ho
    have ho' : ¬ (o = "-f".toList ∨ o = "--fast".toList) := by rcases ho with rfl | rfl | rfl <;> decide
    unfold process
    rw [if_neg h0, h1]
    dsimp only
    rw [if_neg ho', if_pos ho, if_neg (by omega), h2, h6]
    dsimp only
    rw [if_neg, (scale_iff _ _ _).2 ⟨f, hu, rfl⟩]
    · exact ih
    · rintro ⟨g1, g2⟩
      rcases hn with hn | hn
      · exact hn g1
      · rw [(startsWith_iff _ _).2 hn] at g2; cases g2
  | keepalive s t o b rest ho _ ih =>
    intro fuel i hd hf
    obtain ⟨fuel, rfl, h0, h1, h2, h3, h4, h5⟩ := opt hd hf
    have ih := ih fuel (i + 2) h4 h5
    simp only [List.mem_cons, List.not_mem_nil, or_false] at ho
    have ho1 : ¬ (o = "-f".toList ∨ o = "--fast".toList) := by rcases ho with rfl | rfl <;> decide
    have ho2 : ¬ (o = "-o".toList ∨ o = "--timeout".toList ∨ o = "-timeout".toList) := by
      rcases ho with rfl | rfl <;> decide
    unfold process
    rw [if_neg h0, h1]
    dsimp only
    rw [if_neg ho1, if_neg ho2, if_pos ho, if_neg h3, h2]
    dsimp only
    cases b with
    | true => rw [if_pos (by decide)]; exact ih
    | false => rw [if_neg (by decide), if_pos (by decide)]; exact ih
  | keepaliveWrong s t o v rest ho hv _ ih =>
    intro fuel i hd hf
    obtain ⟨fuel, rfl, h0, h1, h2, h3, h4, h5⟩ := opt hd hf
    have ih := ih fuel (i + 2) h4 h5
    simp only [List.mem_cons, List.not_mem_nil, or_false, not_or] at ho hv
    have ho1 : ¬ (o = "-f".toList ∨ o = "--fast".toList) := by rcases ho with rfl | rfl <;> decide
    have ho2 : ¬ (o = "-o".toList ∨ o = "--timeout".toList ∨ o = "-timeout".toList) := by
      rcases ho with rfl | rfl <;> decide
    unfold process
    rw [if_neg h0, h1]
    dsimp only
    rw [if_neg ho1, if_neg ho2, if_pos ho, if_neg h3, h2]
    dsimp only
    rw [if_neg hv.1, if_neg hv.2]; exact ih
  | workers s t o n rest ho _ ih =>
    intro fuel i hd hf
    obtain ⟨fuel, rfl, h0, h1, h2, h3, h4, h5⟩ := opt hd hf
    have ih := ih fuel (i + 2) h4 h5
    simp only [List.mem_cons, List.not_mem_nil, or_false] at ho
    have ho1 : ¬ (o = "-f".toList ∨ o = "--fast".toList) := by rcases ho with rfl | rfl <;> decide
    have ho2 : ¬ (o = "-o".toList ∨ o = "--timeout".toList ∨ o = "-timeout".toList) := by
      rcases ho with rfl | rfl <;> decide
    have ho3 : ¬ (o = "-k".toList ∨ o = "--keepalive".toList) := by rcases ho with rfl | rfl <;> decide
    have hmax : max 1 (atoll n) = if atoll n ≤ 0 then 1 else atoll n := by split <;> omega
    unfold process
    rw [if_neg h0, h1]
    dsimp only
    rw [if_neg ho1, if_neg ho2, if_neg ho3, if_pos ho, if_neg h3, h2]
    dsimp only
    rw [hmax] at ih; exact ih
  | id s t o v rest hfed ho _ ih =>
    intro fuel i hd hf
    obtain ⟨fuel, rfl, h0, h1, h2, h3, h4, h5⟩ := opt hd hf
    have ih := ih fuel (i + 2) h4 h5
    simp only [List.mem_cons, List.not_mem_nil, or_false] at ho
    have ho1 : ¬ (o = "-f".toList ∨ o = "--fast".toList) := by rcases ho with rfl | rfl <;> decide
    have ho2 : ¬ (o = "-o".toList ∨ o = "--timeout".toList ∨ o = "-timeout".toList) := by
      rcases ho with rfl | rfl <;> decide
    have ho3 : ¬ (o = "-k".toList ∨ o = "--keepalive".toList) := by rcases ho with rfl | rfl <;> decide
    have ho4 : ¬ (o = "-w".toList ∨ o = "--workers".toList) := by rcases ho with rfl | rfl <;> decide
    unfold process
    rw [if_neg h0, h1]
    dsimp only
    rw [if_neg ho1, if_neg ho2, if_neg ho3, if_neg ho4, if_pos ⟨hfed, ho⟩, if_neg h3, h2]
    exact ih
  | rti s t o v rest hfed ho hok _ ih =>
    intro fuel i hd hf
    obtain ⟨fuel, rfl, h0, h1, h2, h3, h4, h5⟩ := opt hd hf
    have ih := ih fuel (i + 2) h4 h5
    simp only [List.mem_cons, List.not_mem_nil, or_false] at ho
    have ho1 : ¬ (o = "-f".toList ∨ o = "--fast".toList) := by rcases ho with rfl | rfl <;> decide
    have ho2 : ¬ (o = "-o".toList ∨ o = "--timeout".toList ∨ o = "-timeout".toList) := by
      rcases ho with rfl | rfl <;> decide
    have ho3 : ¬ (o = "-k".toList ∨ o = "--keepalive".toList) := by rcases ho with rfl | rfl <;> decide
    have ho4 : ¬ (o = "-w".toList ∨ o = "--workers".toList) := by rcases ho with rfl | rfl <;> decide
    have ho5 : ¬ (o = "-i".toList ∨ o = "--id".toList) := by rcases ho with rfl | rfl <;> decide
    unfold process
    rw [if_neg h0, h1]
    dsimp only
    rw [if_neg ho1, if_neg ho2, if_neg ho3, if_neg ho4, if_neg (fun hx => ho5 hx.2), if_pos ⟨hfed, ho⟩, if_neg h3, h2]
    dsimp only
    rw [if_pos hok]; exact ih
  | ros s t rest _ ih =>
    intro fuel i hd hf
    obtain ⟨h0, h1, h2⟩ := drop_cons hd
    obtain ⟨fuel, rfl⟩ : ∃ f, fuel = f + 1 := ⟨fuel - 1, by omega⟩
    have ih := ih fuel (i + 1) h1 (by omega)
    unfold process
    rw [if_neg (by omega), h0]
    dsimp only
    rw [if_neg (by decide), if_neg (by decide), if_neg (by decide), if_neg (by decide),
      if_neg (fun hx => absurd hx.2 (by decide)), if_neg (fun hx => absurd hx.2 (by decide)), if_pos rfl]
    exact ih

/-! ## Properties -/

/-- C56.  Whatever the command line, `process_args` never reads past the argument vector. -/
theorem C56_reads_within_argv (cfg : Config) (argv : List Str) (s : Settings) :
    process_args cfg argv s ≠ .fault :=
  (process_spec cfg argv argv.length 1 s (by omega)).1

/-- C56.  It accepts exactly the command lines made of the options of `Accepts`, and sets the parameters to the values
given. -/
theorem C56_accepts_exactly (cfg : Config) (argv : List Str) (s t : Settings) :
    process_args cfg argv s = .accepted t ↔ Accepts cfg (argv.drop 1) s t :=
  ⟨(process_spec cfg argv argv.length 1 s (by omega)).2 t, fun h => process_accepts cfg argv h _ _ rfl (by omega)⟩

/-- C56.  Every other command line is rejected. -/
theorem C56_rejects_the_rest (cfg : Config) (argv : List Str) (s : Settings)
    (h : ∀ t, ¬ Accepts cfg (argv.drop 1) s t) : process_args cfg argv s = .rejected := by
  cases hr : process_args cfg argv s with
  | accepted t => exact absurd ((C56_accepts_exactly cfg argv s t).1 hr) (h t)
  | rejected => rfl
  | fault => exact absurd hr (C56_reads_within_argv cfg argv s)

/-- The decimal numeral with the given digits, most significant first. -/
def numeral (ds : List Nat) : Str := ds.map (fun d => Char.ofNat (48 + d))

/-- The number it denotes. -/
def value (ds : List Nat) : Nat := ds.foldl (fun acc d => 10 * acc + d) 0

/-- C56.  Decimal numerals, with or without a minus sign, denote what they should. -/
theorem C56_decimal_numerals (ds : List Nat) (h : ∀ d ∈ ds, d ≤ 9) :
    atoll (numeral ds) = value ds ∧ atoll ('-' :: numeral ds) = - (value ds : Int) := by
  have hch : ∀ d, d ≤ 9 → (Char.ofNat (48 + d)).isDigit = true ∧ digit (Char.ofNat (48 + d)) = d ∧
      isSpace (Char.ofNat (48 + d)) = false ∧ Char.ofNat (48 + d) ≠ '-' ∧ Char.ofNat (48 + d) ≠ '+' := by decide
  have key : ∀ (ds : List Nat) (acc : Nat), (∀ d ∈ ds, d ≤ 9) →
      digits acc (numeral ds) = ds.foldl (fun acc d => 10 * acc + d) acc := by
    intro ds
    induction ds with
    | nil => intro acc _; rfl
    | cons d ds ih =>
      intro acc h
      obtain ⟨h1, h2, _⟩ := hch d (h d (by simp))
      show digits acc (Char.ofNat (48 + d) :: numeral ds) = _
      rw [digits, if_pos h1, h2, ih _ (fun x hx => h x (by simp [hx]))]
      rfl
  constructor
  · cases ds with
    | nil => rfl
    | cons d ds =>
      obtain ⟨h1, h2, h3, h4, h5⟩ := hch d (h d (by simp))
      have hk := key (d :: ds) 0 h
      have hn : numeral (d :: ds) = Char.ofNat (48 + d) :: numeral ds := rfl
      unfold atoll
      rw [hn] at hk ⊢
      rw [List.dropWhile_cons, h3]
      simp only [Bool.false_eq_true, if_false]
      split
      · rename_i heq; simp at heq; exact absurd heq.1 h4
      · rename_i heq; simp at heq; exact absurd heq.1 h5
      · rw [hk]; rfl
  · have hk := key ds 0 h
    unfold atoll
    rw [List.dropWhile_cons]
    simp only [show isSpace '-' = false from by decide, Bool.false_eq_true, if_false]
    rw [hk]; rfl

/-- `prog -f true --timeout 10 msec -k false -w 3`. -/
def demoArgv : List Str := ["prog", "-f", "true", "--timeout", "10", "msec", "-k", "false", "-w", "3"].map String.toList

def demoSettings : Settings := ⟨false, -1, true, 0, [], []⟩

example : process_args ⟨false, fun _ => false⟩ demoArgv demoSettings =
    .accepted ⟨true, 10000000, false, 3, [], []⟩ := by decide +kernel
example : Accepts ⟨false, fun _ => false⟩ (demoArgv.drop 1) demoSettings ⟨true, 10000000, false, 3, [], []⟩ :=
  (C56_accepts_exactly _ _ _ _).1 (by decide +kernel)
example : process_args ⟨false, fun _ => false⟩ (demoArgv ++ ["--timeout".toList, "5".toList]) demoSettings = .rejected := by
  decide +kernel

/-- C56.  The option `-l` that `usage` prints for federates is rejected, as is `-i`, which it prints for all programs,
in a program that is not a federate. -/
theorem C56_usage_lists_options_that_are_rejected (ok : Str → Bool) (s : Settings) (x : Str) :
    process_args ⟨true, ok⟩ ["prog".toList, "-l".toList] s = .rejected ∧
    process_args ⟨false, ok⟩ ["prog".toList, "-i".toList, x] s = .rejected := by
  constructor <;> simp [process_args, process]

end ReactorC.Args
