import Verif.Hash.ModelHmac
/-! # Model of what panics leave behind in engines, `lib/osi/src/hash/sha256.rs` and `lib/osi/src/hmac.rs`

The same functions as in `Model.lean` and `ModelHmac.lean`, but calls that panic leave the engine behind as it was at that point, as it is found by someone
who catches the panic. `none` is a panic. Statements are in the order of the code. -/
namespace Verif.Hash

/-- The body of the loops of `push` (sha256.rs 181-196) and `push_zero` (204-219): the buffer is written first, then `remaining`, then `total`. -/
def Engine.storeU (e : Engine) (src : List Byte) : Option Unit × Engine :=
  if e.remaining ≤ e.chunk.length then                                   -- 182/205: `checked_sub`
    match copy_at e.chunk (e.chunk.length - e.remaining) src with        -- 184/207
    | none => (none, e)
    | some chunk =>
      if src.length ≤ e.remaining then                                   -- 187/210: `checked_sub`
        if e.total + src.length < 2 ^ 64 then                            -- 189/212: `checked_add`
          if e.remaining - src.length = 0 then                           -- 193/216
            if h : chunk.length = 64 then
              (some (), ⟨sha256_round ⟨chunk.toArray, by simpa using h⟩ e.hash, chunk, chunk.length, e.total + src.length⟩)
            else (none, e)                                               -- excluded by the array type
          else (some (), ⟨e.hash, chunk, e.remaining - src.length, e.total + src.length⟩)
        else (none, ⟨e.hash, chunk, e.remaining - src.length, e.total⟩)
      else (none, ⟨e.hash, chunk, e.remaining, e.total⟩)
  else (none, e)

/-- A turn of the loop that stores nothing: only if the buffer is full, which is then processed. -/
theorem Engine.storeU_full {e e' : Engine} {src : List Byte} (hs : src.length = 0) (hr : e.remaining = 0) (h : e.storeU src = (some (), e')) :
    e'.remaining = 64 := by
  unfold Engine.storeU at h
  split at h
  · split at h
    · cases h
    · split at h
      · split at h
        · split at h
          · split at h
            · cases h
              assumption
            · cases h
          · omega
        · cases h
      · cases h
  · cases h

/-- How long the loops take: a turn for each piece, and one before the first if the buffer is full. -/
def Engine.turns (e : Engine) (n : Nat) : Nat := 2 * n + if e.remaining = 0 then 1 else 0

theorem Engine.turns_lt {e e' : Engine} {src : List Byte} {n : Nat} (hn : 0 < n) (hs : src.length = min e.remaining n)
    (h : e.storeU src = (some (), e')) : e'.turns (n - min e.remaining n) < e.turns n := by
  unfold Engine.turns
  by_cases hr : e.remaining = 0
  · have := Engine.storeU_full (by omega) hr h
    rw [if_pos hr, if_neg (by omega)]
    omega
  · rw [if_neg hr]
    split <;> omega

/-- `push`, sha256.rs 177-198. -/
def Engine.pushU (e : Engine) (data : List Byte) : Option Unit × Engine :=
  if hd : data = [] then (some (), e)
  else
    match h : e.storeU (data.take (min e.remaining data.length)) with
    | (none, e') => (none, e')
    | (some (), e') => e'.pushU (data.drop (min e.remaining data.length))
termination_by e.turns data.length
decreasing_by
  rw [List.length_drop]
  exact Engine.turns_lt (List.length_pos_iff.mpr hd) (by simp [List.length_take]) h

/-- `push_zero`, sha256.rs 200-221. -/
def Engine.push_zeroU (e : Engine) (length : Nat) : Option Unit × Engine :=
  if hl : length = 0 then (some (), e)
  else
    match h : e.storeU (List.replicate (min e.remaining length) 0) with
    | (none, e') => (none, e')
    | (some (), e') => e'.push_zeroU (length - min e.remaining length)
termination_by e.turns length
decreasing_by exact Engine.turns_lt (by omega) (by simp) h

/-- `a?; b` for calls that leave an engine behind. -/
def andThen {α β E : Type} (r : Option α × E) (k : α → E → Option β × E) : Option β × E :=
  match r with
  | (none, e) => (none, e)
  | (some a, e) => k a e

/-- `finalize`, sha256.rs 223-280. -/
def Engine.finalizeU (e : Engine) : Option (List Byte) × Engine :=
  if ¬ e.total * 8 < 2 ^ 64 then (none, e)                              -- 229
  else if e.remaining = 0 then (none, e)                                -- 234
  else if ¬ e.remaining ≤ e.chunk.length then (none, e)                 -- 235
  else
    let total : BitVec 64 := BitVec.ofNat 64 (e.total * 8)
    let e : Engine := ⟨e.hash, e.chunk.set (e.chunk.length - e.remaining) 0x80, e.remaining - 1, e.total⟩    -- 235-236
    andThen (if e.remaining < 8 then e.push_zeroU e.remaining else (some (), e)) fun _ e =>                 -- 241-243
    if ¬ 8 ≤ e.remaining then (none, e)                                 -- 244
    else andThen (e.push_zeroU (e.remaining - 8)) fun _ e =>            -- 245
    andThen (e.pushU (to_be_bytes64 total)) fun _ e =>                  -- 246
    if ¬ e.remaining = e.chunk.length then (none, e)                    -- 249
    else (some (e.hash.toList.flatMap to_be_bytes32), ⟨SHA256_H, e.chunk, e.remaining, 0⟩)                  -- 252-279

/-- A call of the engine of an `Hmac`. -/
def Hmac.lift {α : Type} (h : Hmac Engine) (r : Option α × Engine) : Option α × Hmac Engine := (r.1, ⟨r.2, h.ipad, h.opad⟩)

/-- hmac.rs 80-82, 92-94, 105-107: the inner pad is pushed first. -/
def Hmac.openU (h : Hmac Engine) : Option Unit × Engine := if h.engine.is_reset then h.engine.pushU h.ipad else (some (), h.engine)

/-- `Hmac::push`, hmac.rs 78-85. -/
def Hmac.pushU (h : Hmac Engine) (data : List Byte) : Option Unit × Hmac Engine :=
  if data.isEmpty then (some (), h)
  else h.lift <| andThen h.openU fun _ e => e.pushU data

/-- `Hmac::push_zero`, hmac.rs 90-97. -/
def Hmac.push_zeroU (h : Hmac Engine) (length : Nat) : Option Unit × Hmac Engine :=
  if length > 0 then h.lift <| andThen h.openU fun _ e => e.push_zeroU length
  else (some (), h)

/-- `Hmac::finalize`, hmac.rs 104-113. -/
def Hmac.finalizeU (h : Hmac Engine) : Option (List Byte) × Hmac Engine :=
  h.lift <| andThen h.openU fun _ e =>
  andThen e.finalizeU fun v e =>
  andThen (e.pushU h.opad) fun _ e =>
  andThen (e.pushU v) fun _ e =>
  e.finalizeU

end Verif.Hash
