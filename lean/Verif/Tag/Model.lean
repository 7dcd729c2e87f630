/-!
# Model of `core/tag.c` and `tag/api/tag.h`: instants, intervals and tags

C types: `instant_t`/`interval_t` are `int64_t`, `microstep_t` is `uint32_t`
(tag/api/tag.h:60-83).  The model uses `Int`/`Nat` values together with explicit
range predicates; machine wrap-around is applied by `wrap64`/`wrapU32`.
-/

namespace ReactorC

/-- `NEVER` is `LLONG_MIN` (tag/api/tag.h:33). -/
def NEVER : Int := -9223372036854775808

/-- `FOREVER` is `LLONG_MAX` (tag/api/tag.h:35). -/
def FOREVER : Int := 9223372036854775807

/-- `UINT_MAX` = `FOREVER_MICROSTEP` (tag/api/tag.h:36). -/
def UINT_MAX : Nat := 4294967295

/-- `tag_t` (tag/api/tag.h:80-83). -/
structure Tag where
  time : Int
  microstep : Nat
deriving DecidableEq, Repr

/-- `NEVER_TAG` (tag/api/tag.h:37-38). -/
def NEVER_TAG : Tag := ⟨NEVER, 0⟩

/-- `FOREVER_TAG` (tag/api/tag.h:42-43). -/
def FOREVER_TAG : Tag := ⟨FOREVER, UINT_MAX⟩

/-- `ZERO_TAG` (tag/api/tag.h:47-48). -/
def ZERO_TAG : Tag := ⟨0, 0⟩

/-- The values an `int64_t` can hold. -/
def IsI64 (x : Int) : Prop := NEVER ≤ x ∧ x ≤ FOREVER

instance (x : Int) : Decidable (IsI64 x) := by unfold IsI64; infer_instance

/-- Tags representable by `tag_t`. -/
def Tag.Valid (t : Tag) : Prop := IsI64 t.time ∧ t.microstep ≤ UINT_MAX

instance (t : Tag) : Decidable t.Valid := by unfold Tag.Valid; infer_instance

/-- Two's complement wrap-around of a 64-bit signed result. Signed overflow is
undefined behaviour in C; the model wraps (what the code's overflow check in
`lf_time_add` presupposes) and `timeAddOverflows` marks the inputs concerned. -/
def wrap64 (x : Int) : Int := (x + 9223372036854775808) % 18446744073709551616 - 9223372036854775808

/-- Wrap-around of a 32-bit unsigned result (defined in C). -/
def wrapU32 (n : Nat) : Nat := n % 4294967296

/-- `lf_time_add` (core/tag.c:42-59). The machine sum `a + b` wraps. -/
def lf_time_add (a b : Int) : Int :=
  if a = NEVER ∨ b = NEVER then NEVER
  else if a = FOREVER ∨ b = FOREVER then FOREVER
  else
    let res := wrap64 (a + b)
    if res < a ∧ b > 0 then FOREVER
    else if res > a ∧ b < 0 then NEVER
    else res

/-- Inputs on which the C expression `a + b` in core/tag.c:49 is evaluated and
overflows (undefined behaviour). -/
def timeAddOverflows (a b : Int) : Prop :=
  a ≠ NEVER ∧ b ≠ NEVER ∧ a ≠ FOREVER ∧ b ≠ FOREVER ∧ ¬ IsI64 (a + b)

/-- `lf_tag_add` (core/tag.c:61-83). -/
def lf_tag_add (a b : Tag) : Tag :=
  let res := lf_time_add a.time b.time
  if res = FOREVER then FOREVER_TAG
  else if res = NEVER then NEVER_TAG
  else
    let am := if b.time > 0 then 0 else a.microstep
    let m := wrapU32 (am + b.microstep)
    if m < am then FOREVER_TAG else ⟨res, m⟩

/-- `lf_tag_compare` (core/tag.c:85-97). -/
def lf_tag_compare (tag1 tag2 : Tag) : Int :=
  if tag1.time < tag2.time then -1
  else if tag1.time > tag2.time then 1
  else if tag1.microstep < tag2.microstep then -1
  else if tag1.microstep > tag2.microstep then 1
  else 0

/-- `lf_delay_tag` (core/tag.c:99-116). `FOREVER - interval` cannot overflow
because `interval >= 0` at that point. The microstep increment wraps. -/
def lf_delay_tag (tag : Tag) (interval : Int) : Tag :=
  if tag.time = NEVER ∨ interval < 0 then tag
  else if tag.time ≥ FOREVER - interval then FOREVER_TAG
  else if interval = 0 then ⟨tag.time, wrapU32 (tag.microstep + 1)⟩
  else ⟨tag.time + interval, 0⟩

/-- `lf_delay_strict` (core/tag.c:118-125). -/
def lf_delay_strict (tag : Tag) (interval : Int) : Tag :=
  let result := lf_delay_tag tag interval
  if interval ≠ 0 ∧ interval ≠ NEVER ∧ interval ≠ FOREVER ∧
      result.time ≠ NEVER ∧ result.time ≠ FOREVER
  then ⟨result.time - 1, UINT_MAX⟩
  else result

end ReactorC
