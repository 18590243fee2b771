# Formal model of pasta-tokens in Lean 4

The model covers the PASETO (V3/V4, local/public) and PASERK (plaintext, id,
pie-wrap, password-wrap, seal) code of `/repo/src`, its serde and `Display`
implementations, its fuzz harnesses and its documented key-rotation example. It
is written function by function; every model definition cites the file and
lines it models. The Rust code was read as text only: it was neither built nor
run.

## Layout

| path | contents |
|---|---|
| `lean/Verif/Model/` | the model of the code |
| `lean/Verif/Spec/`  | the independent specification: RFC 4648 over bit strings (Base64), PASETO PAE / v3 / v4 and the token grammar (Pae, Paseto), PASERK id / pie / pbkw / pke (Paserk), feeding text to a receiver (Fmt), blocks of random bytes (Rng), the left-or-right game (Secrecy), the same with an opening oracle (Chosen), sessions on uniformly random bytes (Birthday, Fresh), games counted over random functions (Forging, ForgingMany, Distinguish, Anonymity, Veiling, Probing, ProbingMany, Seeking, Colliding, Sealing, Recipients, SealingMany, PwHiding, Signing), the two parties to a seal (Seal), the JSON grammar of RFC 8259 (Json), key files and point encodings (Pem, EdKeys). Written from the public specifications, never from the model |
| `lean/Verif/Lemmas/` | supporting lemmas about the model |
| `lean/Verif/Props/` | the property theorems, one namespace per property `C01`, `C02`, ..., with concrete non-trivial instances (`example`) beside them |
| `lean/Verif/Toy.lean` | a toy instance of the primitives with a proof of `Prims.Laws`, so the laws are consistent and the round-trip theorems not vacuous |
| `lean/Verif/Real/` | the actual algorithms (SHA-2, HMAC, HKDF, AES-256, PBKDF2, BLAKE2b, XChaCha20, Argon2id, Ed25519, X25519, P-384) as one more instance of the primitives |
| `lean/Verif/Curve/` | the group laws of Curve25519 (Edwards and Montgomery form) and P-384, from primality certificates (`Pocklington`, `Primes`) up to `Real.laws : Real.prims.Laws`; the order of the base points, the numbers of points and of their encodings |
| `lean/Verif/Vectors/` | the repository's own test vectors, run through the model with the real algorithms and evaluated by the kernel: a test of the model, not a proof. Written by `mkvectors.py`; `Documented.lean` reproduces the token printed in the crate's documentation |
| `MANIFEST.json`, `mkmanifest.py` | property to theorem names |
| `AXIOMS.md`, `mkaxioms.py` | the axioms of each theorem, and which theorems assume the laws |
| `seeded/` | wrong programs tried against the theorems (`mutants*.py`, `mutate.py`) and the record (`LOG.jsonl`) |

Model files: Basic (bytes, results, tape), Prims (interface of the crypto
crates, laws), Base64 (`base64ct`), Pem (key files), Pae, Key, Local, Public, Token (`src/lib.rs`:
tokens, footers, builders, errors), Paserk (plaintext, id, base64 helpers), Wrap
(PIE), Pbkw, Pke, Serde, Cache (the `HashMap` of the documented example),
JsonText, JsonRecord (`serde_json` for the types that occur), Fmt (`Display` into any
receiver), Rng (any `RngCore`, `FakeRng`, `Arbitrary` keys), Fuzz (harnesses),
Leakage and LeakageHide (instrumented copies of the functions that handle secrets).

## Modelling decisions

* **Bytes and strings.** `Bytes = List UInt8`. A Rust `&str`/`String` is
  modelled by its UTF-8 bytes. All literals in the code are ASCII.
  `GenericArray<u8, N>` / `[u8; N]` is `BytesN N`, a list with its length proof.
* **Results.** `Res α = ok a | err e | panic`. `Result::Err(e)` is `err e`;
  `unwrap`/`expect` on `Err`, slice index out of bounds and integer underflow
  are `panic`. (In a release build without overflow checks `payload.len() - N`
  wraps, and the following `split_at_mut` then panics, so both builds panic.)
  The boxed error inside `PayloadError` is a string.
* **RNG.** A finite tape of bytes, as in the repository's own `FakeRng`; a draw
  past the end panics. Functions return the remaining tape. `thread_rng`/`OsRng`
  is the same with an unconstrained tape. Rejection sampling (P-384 scalars)
  recurses on the tape. Model/Rng.lean has the same operations over an arbitrary
  `RngCore` with its own state; C58 proves the two models equivalent.
* **Cryptographic primitives** are the fields of `structure Prims`: arbitrary
  functions of the right types. The theorems quantify over every `Prims`, except
  those of Props/Actual.lean, Seals.lean, Passwords.lean and Pbkdf2.lean, which are about the real algorithms. Where a
  theorem needs an algebraic law it takes `P.Laws`: verify after sign (for V3
  when signing gave a signature), Diffie-Hellman commutes, points of order `ℓ`
  for honest curve25519 keys, printing and parsing of points, the two SEC1 forms
  of 49 bytes. Cryptographic hardness is never assumed: security properties are
  explicit reductions ("... or this pair is a MAC collision / this is a
  forgery"), always naming the colliding inputs, since "some collision exists" is
  true of every hash and would make the statement empty.
* Modelled concretely, not as primitives: PAE, base64 as in `base64ct`, the
  CTR mode of `Ctr64BE` over the AES block function, key-stream application,
  scalar clamping and reduction (`edScalar` from the SHA-512 half), the P-384
  scalar and signature range checks, Argon2 parameter validity, tag comparison
  (literally as `subtle` does it), key-derivation splitting, all parsing and
  printing, JSON text of structs with one string field.
* **AES-CTR in the specification** (`Spec.Counter`) is written for both readings:
  `be128` is the standard 128-bit counter, `be64` the one of the code. The
  theorems compare the code with both.
* **Generic code** over version/purpose/key type is indexed by the enumerations
  `Ver`, `Purpose`, `Kind`; `MessageEncoding`, `Footer`, `Serialize`,
  `Deserialize` are Lean type classes.

## Trusted base

* Lean's kernel, and the axioms `propext`, `Classical.choice`, `Quot.sound`
  only; `AXIOMS.md` lists them for each theorem. No axioms of our own, no
  `sorry`, no `native_decide`, no `bv_decide`.
* That the model definitions describe the Rust code (reviewable through the
  line citations).
* The described behaviour of the dependencies:
  - `base64ct` 1.6.0: decoding algorithm, canonicity check, buffer errors
  - `subtle`: slice equality
  - `ctr`, `cipher`, `chacha20`: 64-bit big-endian counter; `apply_keystream` panics when the key
    stream ends (left out except in Model/Limits.lean, C80)
  - `digest`: streamed updates act as concatenation; `hkdf`: multi-part info is
    concatenation
  - `argon2`: `Params::new` validity; `pbkdf2`: zero rounds do not panic
  - `ecdsa`: `Signature::from_bytes` range check, `try_sign_digest` tries one
    nonce and errors on zero `r` or `s`
  - `elliptic-curve`: rejection sampling of scalars, `from_slice` pads slices of
    24 to 47 bytes; `sec1`: the compact form (tag 5) is decoded
  - `ed25519-dalek`: `from_keypair_bytes` check, expanded scalar
  - `pem-rfc7468`, `sec1`, `spki` for files in the standard layout; the curve in an
    `ECPrivateKey` is not compared, the public key in it is
  - `rand`: the code only uses `fill_bytes`; `arbitrary` 1.x zero-pads
  - `serde_json`: as in Model/JsonText.lean and Model/JsonRecord.lean for structs with string fields,
    `collect_str` escapes the pieces; std: `HashMap`, `fmt::Formatter::write_str`
    passes through
* The laws in `Prims.Laws` are a hypothesis of some theorems, but nothing has to be
  trusted for them: they are proved for the toy instance and for the real
  algorithms (`Real.laws`). What is trusted is that the Rust crates compute the
  functions of `lean/Verif/Real/`, checked on the test vectors.
* Not modelled: `serde_json` for other types (codecs are arbitrary functions,
  with a round-trip hypothesis where needed), PEM files outside the
  standard layout, memory zeroisation, machine
  timing, allocation failure, `u64`
  overflow of lengths (slices are shorter than 2^63 in Rust; stated as a
  hypothesis where it matters), benches.

## Findings

Where the wanted property is false of the code, the property states the exact
behaviour and a theorem `..._refuted` (or `..._deviates`, `..._malleable`,
`..._not_canonical`) is the witness.

| finding | theorems |
|---|---|
| decrypting a token with a short payload panics, e.g. `v4.local.` | C12 |
| verifying a token with a short payload, or in V3 with an out-of-range signature, panics | C13 |
| V3 signing panics where ECDSA has no signature for the deterministic nonce | C02 |
| V3 AES-CTR uses a 64-bit counter: texts differ from the standard when the low half of the IV wraps | C03, C34, C38, C44 |
| V3 public keys have a second text (SEC1 compact form) | C26 |
| V4 password wraps ignore the upper half of the 64-bit memory parameter: 2^32 texts for one wrapped key, `settings()` reports the truncated value | C39, C40, C42 |
| V4 password unwrapping panics on Argon2 parameters out of range | C41 |
| V3 unsealing panics on an ephemeral key that is not a point | C46 |
| V4 sealing reduces the X25519 scalar: differs from the standard for recipients with a low-order component | C44 |
| V3 public tokens are malleable: anyone can turn an accepted token into another accepted one with the same content | C63 |
| weak V4 public keys are accepted: under one of them a fixed signature verifies every message, under the other keys of small order those whose challenge is divisible by 8 | C64, C72 |
| V4 public keys have encodings that RFC 8032 refuses: the same point under up to four different keys (and key ids); honest keys are not affected unless `y` is below 19 | C91 |
| a key sealed to a weak V4 public key can be read by anyone | C70 |
| in V3, passwords that differ in trailing zero bytes, and a password of more than 128 bytes and its SHA-384 hash, open the same wraps | C71 |
| whoever writes a password-wrapped text chooses how long the password hash takes (up to 2^32 - 1 rounds or passes), before anything is authenticated; a caller has to look at `settings()` first | C77 |
| the documented receiver (`keys[&id]`) panics on every well-formed token whose footer names a key it does not have, that is, anybody can make it panic without a key | C78.not_in_force, C50.lookup |
| V4 encryption panics on messages of more than 256 GiB less 64 bytes; decryption only if such a token is authentic | C80 |
| a text ending in an empty footer section parses like the one without `.` | C06 |

## Plan per property

| id | modelled | proof |
|---|---|---|
| C01 | encrypt, Display, FromStr, decrypt | base64 round trip, splitting lemmas, xor involution |
| C02 | sign, Display, FromStr, verify | same, with signature laws; signing fails only by the V3 panic |
| C03 | encrypt/decrypt vs `Spec.Paseto` | equality of byte strings. V4 in full; V3 in full for the 64-bit counter, an iff for when this is the standard text, a witness that it can differ |
| C04 | sign/verify vs `Spec.Paseto` | equality |
| C05 | FromStr vs the grammar of `Spec.Paseto` | iff, via base64 characterisation |
| C06 | FromStr then Display | characterisation of accepted strings |
| C07 | FromStr | prefix incompatibility: a header that strictly extends another one leaves a body that is not `base64[.base64]`, so no string parses as two different version/purpose/suffix combinations, for every payload-encoding suffix |
| C08 | history of encrypt calls, decrypt | reduction to a MAC forgery, PAE injectivity |
| C09, C10 | decrypt / verify with changed assertion / footer, on tokens and on texts | PAE injectivity |
| C11 | decrypt / verify with arbitrary decoder | case analysis |
| C12, C13 | decrypt / verify | exact panic conditions, witnesses of panic |
| C14 | history of sign calls, verify | reduction to a signature forgery |
| C15 | pae | prefix-code induction |
| C16 | generic_digest, preauth, KDF labels | PAE injectivity, header case analysis; the operations are shown to use exactly these inputs |
| C17 | sequences of encryptions over a tape | induction over the sequence |
| C18 | Footer instances, JSON of the footer types | case analysis; the JSON reader accepts exactly the grammar of Spec/Json (soundness and completeness by induction) |
| C19, C20, C21 | builders, wrappers, layout | computation |
| C22 | base64ct | equality with a bit-string specification, by strong induction |
| C23, C24 | write_b64, read_b64 | induction over chunks |
| C25, C26 | plaintext | composition; C26 exact for V3 public keys, from the SEC1 law |
| C27, C28 | key constructors, PEM, random keys | case analysis, induction over rejection sampling |
| C29-C32 | id | composition, lexicographic order laws, reduction to hash collision |
| C33-C36 | wrap | as for tokens |
| C37-C42 | pbkw | as for tokens; C39-C42 for V4: exact characterisations and witnesses |
| C43-C46 | pke | as for tokens; C44: standard text for torsion-free recipients, reduced scalar in general; C46: exact characterisation and witness |
| C47, C48 | all parsers | prefix incompatibility, case analysis |
| C49 | serde impls | every impl goes through Display / FromStr |
| C50 | crate example | composition of C02, C29, C32 and the map |
| C51 | recovered keys | composition, induction over chains of wrappings |
| C52, C53 | Debug, Error | computation |
| C54 | fuzz harnesses | composition, with a model of the JSON of the harness' data type |
| C55 | Model/Leakage.lean: copies of the verification functions that record their steps (primitive calls with lengths, positions compared, branches) | equality of results with the plain functions; traces of any two runs agree when lengths, public parameters and verdict agree |
| C56 | Display impls against an arbitrary `fmt::Write` receiver (Model/Fmt.lean), serde `collect_str` | each impl is equated with feeding a list of pieces; induction over the list |
| C57 | the four hiding operations, over primitives whose ciphers can be exchanged (Spec/Secrecy.lean: the left-or-right game) | every operation is shown to use the cipher only through one key stream; the key stream is shifted by the xor of the two contents; induction over the sequence |
| C58 | the operations over an arbitrary `RngCore` (Model/Rng.lean), `FakeRng`, `Arbitrary` for keys | equivalence with the tape model, block by block; induction over rejection sampling and over the sequence |
| C59 | not expressible: machine time and the memory of dropped values are not part of any value the code computes; the source has no `Drop` or zeroize code of its own | the part about the source is C55 |
| C60 | decrypt, verify under two keys | C03, C04 acceptance conditions under both keys; V3: the compressed key is a piece of the signed PAE, PAE and compression are injective |
| C61 | histories of `Op`: encryptions and PIE wraps under one key, in any order | induction over the history splits it into a C08 and a C35 history; authenticated inputs of the two kinds differ in their first byte |
| C62 | the operations of C02, C25, C33, C37, C43, C51 with `Real.prims` | those theorems with `Real.laws`: Edwards and Weierstrass group laws (Mathlib for the latter), ladder correctness by induction over bits |
| C63 | verify with `Real.prims` | V3: negating the second scalar negates the point, its x coordinate is the same. V4: the base point has prime order, so the response is determined modulo the order, and verification checks that it is reduced |
| C64 | FromStr of a V4 public key, verify | the neutral element times the challenge is neutral |
| C65 | `public_key`, V3 | the base point has prime order n and scalars are below n |
| C66 | `from_sec1_pem`, `from_public_key_pem`, `from_sec1_bytes` | the readers invert the layouts of Spec/Pem (base64 by groups, DER by cases), and only DER is read (`spki_inv`); SEC 1 forms against the curve equation |
| C67 | `Display` and `FromStr` of all PASERK types and of tokens | the exact grammars, and the length and alphabet of base64url |
| C68 | `public_key` of V4 secret keys, the recipient side of sealing, with `Real.prims` | the base point has prime order and clamped scalars are multiples of eight below 2^255; the Montgomery coordinate determines a point of odd order up to its sign |
| C69 | `seal` with `Real.prims` | the same, for ephemeral scalars; V3 as in C65 |
| C70 | `FromStr` of a V4 public key, `seal` with `Real.prims` | the ladder is right for every point of the curve, also for those of small order |
| C71 | `pw_wrap_with_settings_and_rng` and `unwrap_key` with `Real.prims` | PBKDF2 uses the password only through the HMAC key; lists of zeros; Argon2 writes the length of the password in front of it; Props/Pbkdf2.lean: induction on the rounds shows that `Real.pbkdf2Sha384`, which keeps the two keyed states, is the definition in RFC 8018 |
| C72 | verify with `Real.prims` | the curve has 8ℓ points: an explicit point of order 8, the base point, and a bound on the number of encodings; so outside the eight points of small order a multiple determines the scalar modulo ℓ. P-384 has prime order: two points with the same x are equal or opposite |
| C73 | decrypt, unwrap, unseal with `Real.prims` | the lists of hash inputs of one tag check are written out (HMAC by RFC 2104, HKDF by RFC 5869); equal tags are peeled layer by layer: at each layer the inputs are equal, which gives equal keys and parts because the encodings are injective, or they are a collision |
| C74 | hiding and opening, tokens, PIE, passwords, sealing, over exchangeable ciphers (Spec/Chosen.lean: the game with an opening oracle and adaptive requests) | opening is shown to use the ciphers only under one cipher key, and only if the tag is right; a transcript is then determined by the texts and the openings (induction on rounds), and C57 supplies the ciphers. An accepted text is determined by MAC key and message (injectivity of the encodings) |
| C75 | encrypting tokens and wrapping keys, on random sources counted as equally likely (Spec/Birthday.lean: adaptive sessions) | the nonces of a session are the first blocks of the random source (induction on the session); sequences of distinct blocks are counted (injections), with a bound on falling factorials by induction |
| C76 | the four opening operations with an arbitrary tag | the outcome is a comparison with one tag (the forms used for C08, C35, C42, C45); tags are counted |
| C77 | the instrumented functions of C55, with the password hash and verification of signatures added | the step lists of C55 are summed; what happens inside a primitive counts as the bytes it reads and writes, a password hash as its parameters. Parsing of text is not counted |
| C78 | the receiver of C50 with a map that changes: a history is a list of actions (enter a key, remove an id, sign a token), the map is the fold of the actions (`HashMap::insert`, `HashMap::remove` as in C50) | induction on the history from its end for `in_force_iff`; the rest from C14, C05 and C02. Histories are sequences: no data race is possible on a map that is borrowed mutably for each change |
| C79 | serde_json for structs with several string fields (Model/JsonRecord.lean) and the documentation's payload; times and UUIDs are any types with a text form (`TextField`), their formats are those of the dependencies `time` and `uuid` | the reader is sound and complete for a grammar (Spec/Json.lean), by induction on the text and on the list of members; C50, C78 and C05 give the rest. Vectors/Documented.lean runs the documented program and prints the documented token |
| C80 | Model/Limits.lean: the functions that apply a key stream to a message, once more, with the limit of `apply_keystream` | equality with the plain functions up to the limit; above it by computation and C03 |
| C81 | Spec/Forging.lean: the game, with the MAC that makes the tags exchanged for a function; Lemmas/Trees.lean: strategies that ask for and guess values of a function | the session under a function becomes such a strategy (induction over the requests, with C03, C08's injectivity and the domain separation of tags and key derivation); counting by induction over the strategy, functions with known values on a finite set |
| C82 | Spec/Distinguish.lean: the adaptive left-or-right game under one key; what is counted are random blocks, derived cipher keys and the cipher (AES as any function on blocks, the first L bytes of the XChaCha20 key stream as any bytes) | every request is reduced to nonce, cipher key, hidden bytes and a text made of nonce and ciphertext; with distinct cipher keys the ciphers for the two sides correspond one to one (the key stream is shifted by the difference; the session is the same, by induction); that a cipher key repeats is bounded by guessing strategies (Lemmas/Trees.lean) over nonces and derived keys |
| C83 | Spec/Probing.lean: the game of C82 with decryption and unwrapping requests in between; counted is in addition the MAC on a finite set of inputs | the game is compared with one where every opening is answered without the key (refused once the text parses): they differ only if a tag is guessed, bounded by a guessing strategy as in C81 for each choice of nonces, cipher keys and cipher; the game with blind openings is one without openings, played by an asker who works the refusals out alone, so C82 applies for each MAC |
| C84 | Spec/Seeking.lean: the game of finding a password: keys wrapped and texts unwrapped with it, passwords hashed; counted over the passwords of a finite set and all functions as password hash on it (the other primitives stay) | requests with the unknown password see it only through its hash; exchanging the function's value there for an independent one changes nothing before it is hashed itself, which makes the list of hashed passwords independent of the right one: summed over passwords it holds at most q |
| C85 | Spec/Colliding.lean: the game of finding keys with the same id: ids of keys chosen one after the other; counted over all functions on what can be hashed for an id (the other primitives stay) | distinct keys have distinct hash inputs (as in C32), so each new key is a guess at a value not asked for before: a tree of guesses (Lemmas/Trees), with one guess per earlier or given key |
| C86 | the signature algorithms of Verif/Real (RFC 6979, RFC 8032), with the hash inputs of a nonce listed | equal first halves are equal or opposite multiples of the base point; from equal nonces back through the HMAC calls of RFC 6979 by induction over the refused candidates (C73's collision finding); the formulas for the key from the two verification equations |
| C87 | instrumented copies of the functions that encrypt, sign, wrap and seal (Model/LeakageHide.lean), recording steps as in C55 | equal results by unfolding; the step list is computed from lengths, by induction over the failed attempts for the V3 ephemeral key; the inside of primitives and encoders is one step each |
| C88 | the sealing and unsealing functions with random functions for the key derivation hash and the cipher (Spec/Sealing.lean); a game and a second game with a random text | the values of the hash on the shared secret, and the cipher under the key they give, are drawn apart (a bijection, Lemmas/Plug.lean); then both games answer alike unless the shared secret is hashed, a tag is forged, or the cipher key is hit (counted); the solver reads the shared secret out of a request. Tags are those of the given primitives, or a random function too: then the tags under the one key are drawn apart, and each request guesses at most one of them (Lemmas/RandomTags.lean) |
| C89 | wrapping and unwrapping with a password, with random functions for the password hash, the key derivation hash and the cipher (Spec/PwHiding.lean); a game and a second game with a random text, in which the unknown password has a hash of its own | the hash of the password, its value at the salt and settings of the text, the two values of the key hash there and the cipher under the key they give are drawn apart (bijections; Lemmas/Plug.lean, Lemmas/OneCipher.lean); then both games answer alike unless the password is hashed, the value is hit, a tag is forged or the cipher key is hit (counted). Tags are those of the given primitives, or a random function too, as in C88 |
| C90 | signing, printing, parsing and verifying of version 4 tokens on the actual curve, with random functions for the nonce and the challenge hash of Ed25519 (Spec/Signing.lean); the game of a forger, and the computation of the secret that runs them twice | the game does not change if second halves and challenges of signatures are drawn and first halves computed from them (a bijection; Lemmas/Fork.lean, Lemmas/SigningSim.lean); a win is then a signature with a nonce of the forger's own, or one with the nonce of a message never signed, which is a guess; the forking lemma (Lemmas/Fork.lean), proved by counting, gives two of the first kind with one input and two challenges; the base point has prime order (Curve/Order25519.lean), so the equation can be solved |
| C91 | `from_public_key`, `from_sec1_bytes`, the plaintext parser, on the actual curves (Spec/EdKeys.lean, Spec/Pem.lean) | soundness and completeness of the decompression; the strings are counted by the points: a point is its second coordinate and a parity, and the points are counted in Curve/Card25519 and Card384 |
| C92 | every operation that draws, run on a source of `N` bytes (Spec/Fresh.lean); probability is the share of all sources of that size | each draw shows any given value for at most a 2^-250 share of its bytes (clamped ephemeral keys: five bits fixed, two keys per public key; rejection sampling of P-384 scalars: induction over the tries); cutting the source at what was read makes the rest as good as new; sum over the pairs |
| C93 | Spec/Anonymity.lean: the adaptive game in which every request names two keys; counted are random blocks and what the keys in use derive from nonces (cipher key, initialisation vector, authentication key); everything else, cipher and MAC included, is that of any `P` | every request is reduced to its nonce, what is derived, and a text made of these; exchanging what the two named keys derive from the nonce of each request (worked out along the session, so that it is adaptive) is one to one if the nonces are distinct, and takes the texts of one side to those of the other; repeated nonces as in C75 |
| C94 | Spec/Veiling.lean: the games of C82 and C93 in one; counted are random blocks, what the keys in use derive from nonces, and the cipher | in three steps: by C93 (for each cipher) all keys may be replaced by a single one, by C82 (for each choice of everything derived except the cipher keys of that one) the messages may be exchanged, by C93 the key may be replaced by those of the other side |
| C95 | Spec/ForgingMany.lean: the game of C81 with a key named in every request, and a MAC to be had under every MAC key that no key in use derives | the tags are answers of one random function at (MAC key, authenticated bytes); two items with equal authenticated bytes are equal, under whatever keys, and no point asked for outside belongs to a key in use; then the guessing lemma of C81 |
| C96 | Spec/ProbingMany.lean: the games of C94 and C83 in one, openings under any key | as C83: without a guessed tag every opening is refused (the guessing lemma of C81, equal authenticated bytes are equal items under whatever keys), and refusals can be answered without the keys, which leaves the game of C94 |
| C97 | Spec/Recipients.lean: the game of C88 with two recipients who both unseal; a second game with a random text that no recipient has a part in | as C88, with the two values of the hash drawn apart in a place of their own for each recipient (`Plug.close_sides`); the recipient who is not meant hashes with another public key, so that nothing changes for them, and if both public keys enter alike, their secrets are the same. Random tags: besides the authentication key of the text, that of each recipient for the same ephemeral key is drawn apart |
| C98 | Spec/SealingMany.lean: `m` sealings, each with a left and a right case, any number of recipients who unseal; games in which one text is random | a hybrid argument: the sealings before the i-th are as on the right, the later ones as on the left (`telescope`); one step is C97's, where the other texts hash other ephemeral keys and so are not touched, except that they may use the same cipher key, which costs the m in m + n. With the actual algorithms the ephemeral keys repeat rarely (`good_tapes_v3`, `good_tapes_v4`): at most 64 tapes give the same key (C92), and a sum over pairs |
| C99 | Spec/Computing.lean: the game of C94, with requests that tell the cipher under a key in between | the session is compared with one in which every text is made with a cipher of its own (Lemmas/Computing.lean): as long as no cipher key is used twice and none has been asked for, exchanging these ciphers with those under the cipher keys changes nothing (`real_ideal`, `ideal_real`; one counts by an involution, `count_transfer`), and there the candidates can be swapped by masking (`ideal_swap`). With ciphers of their own, cipher keys are drawn independently of all else, so they are rarely repeated or guessed (`unclean`). The change of keys is C93's with the cipher requests folded away (`plays_after`) |
| C100 | Spec/Knowing.lean: the games of C96 and C99 in one, with requests that tell tags as well | the session is compared with one in which openings are blind (they fail without looking at the tag). Where the two differ, a tag was guessed or a MAC key in use was computed with; which of the two is a tree of tries (`Tries`, Lemmas/Knowing.lean), found by following the session as if all tags were still to be drawn (`strategy`). Along a path of the tree, as long as no MAC key in use has been tried, exchanging the tags under those keys with fresh ones changes nothing (`exch`), so such a path is as likely as with independent tags (`right_rare`). The blind session asks only for texts and ciphers (`drive`, `blinded_eq`), so C99 bounds its difference |
| C101 | Spec/Trying.lean: the game of C100 with random keys and with requests that tell what a key derives. What keys derive and the MAC are separate random functions although BLAKE2b (V4) makes both: the code never puts the same bytes through both (`encInput_head`, `authInput_head`), and a MAC request at an input of the derivation tells nothing about it | only what the keys in use derive matters for texts and openings (`same`), so exchanging what the others derive with something independent (`swapElse`) leaves the session as it is until a key in use is tried (`until_found`, `view_apart`). In the session with the independent answers, the keys tried depend only on what the keys in use derive, not on which keys they are (`hits`, Lemmas/Trying.lean), so they are hit with chance ru/2^256 if no two are equal (`found_rare`). And there the answers about keys are fixed beforehand, so it is a session of C100 (`drive`, `trying_eq`) |
| C102 | Spec/Hybrid.lean: the game of C101, after one of the keys has been sealed with the model's `sealKey` (Spec/Sealing.lean) under the same cipher, tags and derivation, with requests for the key derivation hash and for unsealing other texts added. That hash is one more separate random function: its inputs (V3: SHA-384, V4: BLAKE2b without a key) are never given to the other two by the code. Not covered: several sealed keys (C98's) | first the hash at the two inputs with the shared secret and, in the cipher, the key derived from it are exchanged for something drawn afresh: nothing else in the session sees them unless the secret is hashed, another text with the same ephemeral key passes, or the cipher key comes up (`hop_at`, `hop_all`; Lemmas/Hybrid.lean shows which of the primitives each request looks at). What is left is a session with a text that has nothing to do with the keys; its tag is one more MAC request, hash requests are answered beforehand, and to unseal a text is one MAC and one cipher request, so it is a session of C101 (`simulated`, `ideal_trying`, `ideal_sides`). That another text with the same ephemeral key passes in it is bounded by counting: hiding, opening and unsealing with other ephemeral keys never look at such tags, so only MAC requests under the random authentication key do (`few_macs`, `idealU_off` in Lemmas/HybridTags.lean), and another tag under it is a guess (`Plug.forged_among`, `forging`, `broken_le`) |
| C103 | Spec/PwInUse.lean: the game of C101, after one of the keys has been wrapped with the model's `pwWrapWithSettings` (Spec/Seeking.lean, Spec/PwHiding.lean) under the same cipher, tags and derivation, with requests for the password hash and for the hash that derives keys added. These are two more separate random functions (V3: PBKDF2 and SHA-384, V4: Argon2id and BLAKE2b without a key). Not covered here: other keys wrapped or unwrapped with the same password (C89's) | the value of the password hash is drawn apart (`redraw`); then the key hash at its two inputs and, in the cipher, the key derived from it are exchanged for something drawn afresh: nothing else in the session sees them unless the password is hashed, the value hashed, or the cipher key comes up (`hop_at`, `hop_all`, `met_le`; Lemmas/PwInUse.lean shows which of the primitives each request looks at). What is left is a session with a text that has nothing to do with keys and password; its tag is one more MAC request, hash requests are answered beforehand, so it is a session of C101 (`simulated`, `ideal_trying`, `ideal_sides`) |
| C104 | Spec/KeyDependent.lean: the game of C101, where each candidate is a function of the keys in use; requests are filled in with the keys and served as in C101. Footers, implicit assertions, types and the number of the key do not depend on the keys: they are public | for each drawing of the keys, C100's bound applies to the game where the keys derive something drawn apart (its strategy may know the keys); each side is compared with a game whose candidates depend neither on keys nor side (`between`, `blank`, `trying_alike`), where a key in use is tried as rarely as in C101 (`met_rare`); so that event is rare on both sides (`met_in`), and unless it happens nothing changes (`view_same`, `to_blank`) |
| C105 | Spec/IdsKnown.lean: the game of C104, where the ids of the keys in use are told first and the hash that makes ids (`Prims.withIds`, Spec/Colliding.lean) is drawn at random and can be asked about | hiding and opening do not use the hash (`hide_hash`, `look_hash`); what it makes of the keys in use is exchanged for something drawn apart (`move`), which changes nothing unless a key in use is tried or two keys are equal (`real_eq`); then the game is simulated in C104's, each request about the hash counting as a key tried (`sim`, `back`, `run_eq`), for every hash and all ids drawn apart, and the bounds are averaged over these (`one_side`) |
| C106 | Spec/Lifecycle.lean: one source of r + n blocks; `generate` calls `Key.localRandom` r times; then ids and the game of C105 with the rest of the source | generated keys are the first r blocks and the rest of the source is the other n (`generate_eq`); cutting the source is a bijection (`split`) under which the game is C105's (`view_eq`) |
| C107 | Spec/SecretContent.lean: `Holding`, contents as functions of the keys and a secret; `Life.seenWith`, C106's game with both sides given the same secret | for each secret C106 with left = the secret and right = a fixed value; what is seen depends only on the secret of the side taken (`view_alike`); averaged over all secrets (`from_advantage`, `semantic`); from the fixed value t guesses hit t in the number of secrets (`blind`) |
| C108 | Spec/SealedSecret.lean: `Sealings`, recipients and keys as functions of a secret; `Sealings.seen`, C98's game with the same secret in both cases | for each secret C98 with left = the secret and right = a fixed value, averaged over all secrets (`mean_close`); from the fixed value t guesses hit t in the number of secrets (`blind`) |
| C109 | C89's game (Spec/PwHiding.lean) with one key, made from a secret | as C108, from C89 with random tags for each secret; wrapping and unwrapping as in C37, in the game's primitives (`opened`) |
| C110 | C89's game with the password drawn by any function of an even draw; `AtMost` says how many draws lead to one of q passwords | as C89: the passwords hashed in the ideal game do not depend on the draw, so the draws that hit one of them are at most B; then as C109 |
