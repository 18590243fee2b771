{"id": "C01", "title": "local tokens round-trip through their text form", "statement": "Encrypting any message with any footer and implicit assertions, printing the token, parsing the text and decrypting it with the same key and assertions returns exactly the message and footer that went in, in both V3 and V4.", "quantifier": "every key, RNG output, message, footer, assertion and encoding whose decode inverts its encode", "why_tests_cant": "the domain of messages, footers, assertions, nonces and keys is unbounded; test vectors cover a few dozen points", "anchors": ["src/purpose/local/mod.rs: encrypt_with_assertions_and_rng, decrypt_with_assertions, sandwich, generic_encrypt, generic_decrypt", "src/lib.rs: tokens::SecuredToken Display/FromStr"]}
{"id": "C02", "title": "public tokens round-trip through their text form", "statement": "Signing any message with any footer and implicit assertions, printing, parsing and verifying with the matching public key and the same assertions returns exactly the message and footer, in both V3 and V4. The only way in which signing an encodable message and footer can fail is a panic in V3 when ECDSA has no signature for the deterministic nonce.", "quantifier": "every secret key, message, footer, assertion and encoding whose decode inverts its encode", "why_tests_cant": "unbounded message, footer and assertion space", "anchors": ["src/purpose/public/mod.rs: sign_with_assertions, verify_with_assertions", "src/purpose/public/v3.rs", "src/purpose/public/v4.rs"]}
{"id": "C03", "title": "local tokens have the wire format of the PASETO specification, with one exact exception in V3", "statement": "The text produced by encrypting is, byte for byte, what the PASETO local Encrypt procedure prescribes for that key, nonce, message, footer and assertion, and decrypting accepts exactly the payloads whose tag the specification's Decrypt procedure accepts. For V4 without exception. For V3 the code increments only the last 64 bits of the AES-CTR counter block: the text is always that of the procedure with this counter, and it is the standard text exactly when the two key streams agree on the message, in particular whenever the low half of the counter does not wrap.", "quantifier": "every key, nonce, message, footer, implicit assertion", "why_tests_cant": "interoperability must hold for every length and every derived IV (counter carries happen with probability 2^-60 and are never sampled)", "anchors": ["src/purpose/local/mod.rs: generic_encrypt, generic_digest, generic_decrypt", "src/purpose/local/v3.rs: Cipher::Stream (Ctr64BE)", "src/purpose/local/v4.rs"]}
{"id": "C04", "title": "public tokens have the wire format of the PASETO specification", "statement": "The text produced by signing is byte for byte what the PASETO V3/V4 public Sign procedure prescribes, and verification accepts exactly the signatures valid for the specification's pre-authentication encoding (which in V3 starts with the compressed public key).", "quantifier": "every key, message, footer, implicit assertion and signature", "why_tests_cant": "must hold for every message length and content", "anchors": ["src/purpose/public/v3.rs: digest", "src/purpose/public/v4.rs: preauth"]}
{"id": "C05", "title": "the token parser accepts exactly the PASETO grammar", "statement": "A string parses as a token of a given version, purpose and encoding if and only if it is <version><suffix>.<purpose>.<payload> optionally followed by .<footer>, where payload and footer are canonical unpadded base64url and the footer type accepts the decoded footer bytes; the parsed token holds exactly the decoded bytes.", "quantifier": "every string", "why_tests_cant": "the set of strings is infinite and the negative half of an iff cannot be sampled", "anchors": ["src/lib.rs: tokens::SecuredToken::from_str"]}
{"id": "C06", "title": "token text is canonical up to one documented exception", "statement": "Printing a parsed token gives back the original text, unless the text ended with '.' and an empty footer section, in which case exactly that trailing '.' is dropped; hence two different strings that parse to the same payload and footer bytes differ only by that trailing '.'.", "quantifier": "every string accepted by the token parser", "why_tests_cant": "malleability is a statement about all alternative spellings", "anchors": ["src/lib.rs: tokens::SecuredToken Display/FromStr"]}
{"id": "C07", "title": "version and purpose confusion is impossible at parse time", "statement": "No string is accepted by token parsers of two different version/purpose combinations.", "quantifier": "every string, every pair of version/purpose combinations", "why_tests_cant": "ranges over all strings", "anchors": ["src/lib.rs: tokens::SecuredToken::from_str, version::Version, purpose::Purpose"]}
{"id": "C08", "title": "local tokens are unforgeable relative to the MAC, over any history of issued tokens", "statement": "After any history of encryptions under a key, if decrypting a token under that key with some assertions does not fail with CryptoError, then that exact payload, footer and assertions were the output of one of those encryptions, or else the token exhibits a valid MAC tag for an input that was never MACed under that authentication key in the history. The same on texts: a text that parses and decrypts is one of the texts issued, or exhibits such a forgery.", "quantifier": "every finite history of encrypt calls, every candidate token, every assertion", "why_tests_cant": "quantifies over adversarial tokens and over histories", "anchors": ["src/purpose/local/mod.rs: encrypt_inner, decrypt_with_assertions, generic_digest", "src/pae.rs"]}
{"id": "C09", "title": "implicit assertions are bound to the token", "statement": "A token made with one implicit assertion is rejected with CryptoError when presented with any different assertion, unless the two distinct authenticated inputs collide under the MAC (local) or the signature for one also verifies for the other (public).", "quantifier": "every token, every pair of distinct assertions", "why_tests_cant": "all pairs of assertions, including those whose bytes could be shifted into the footer", "anchors": ["src/purpose/local/mod.rs: decrypt_with_assertions", "src/purpose/public/mod.rs: verify_with_assertions", "src/pae.rs: pae"]}
{"id": "C10", "title": "the footer is authenticated", "statement": "Replacing the footer of a token, or of its text, by any other footer bytes makes decryption/verification fail with CryptoError, unless the distinct authenticated inputs collide under the MAC or the signature verifies for both.", "quantifier": "every token, every replacement footer", "why_tests_cant": "all replacement footers, including moving bytes between footer, ciphertext and assertion", "anchors": ["src/purpose/local/mod.rs: generic_digest", "src/purpose/public/v3.rs: digest", "src/purpose/public/v4.rs: preauth"]}
{"id": "C11", "title": "no unauthenticated data is released or decoded", "statement": "If the authentication tag or signature does not match, the result is CryptoError whatever the payload decoder would have done with the bytes; a PayloadError from decrypt/verify therefore only ever reports on authentic bytes.", "quantifier": "every token, key, assertion and payload decoder", "why_tests_cant": "needs all decoders and all tokens", "anchors": ["src/purpose/local/mod.rs: generic_decrypt, decrypt_with_assertions", "src/purpose/public/mod.rs: verify_with_assertions"]}
{"id": "C12", "title": "decrypting a parsed token returns a Result, except for truncated payloads, where it panics", "statement": "Decrypting any token obtained by parsing any string returns a Result unless the decoded payload is shorter than nonce plus tag; for those it always panics. So the wanted property 'decrypting never panics' is false of the code, e.g. for the text 'v4.local.'.", "quantifier": "every string accepted by the parser, every key and assertion", "why_tests_cant": "panic-freedom over all inputs; the fuzz targets only parse and never decrypt", "anchors": ["src/purpose/local/mod.rs: decrypt_with_assertions (split_at_mut, len subtraction)"]}
{"id": "C13", "title": "verifying a parsed token returns a Result, except for malformed signatures, where it panics", "statement": "Verifying any token obtained by parsing any string returns a Result unless the payload is shorter than a signature or, in V3, the trailing 96 bytes are not a pair of scalars in [1, n-1]; for those it always panics. So the wanted property 'verifying never panics' is false of the code.", "quantifier": "every string accepted by the parser, every key and assertion", "why_tests_cant": "panic-freedom over all inputs", "anchors": ["src/purpose/public/mod.rs: verify_with_assertions", "src/purpose/public/v3.rs: verify (Signature::from_bytes(..).unwrap())"]}
{"id": "C14", "title": "public tokens are unforgeable relative to the signature scheme, over any history", "statement": "After any history of signatures under a secret key, if verification of a token under its public key does not fail with CryptoError, then the same message bytes, footer and assertions were signed in the history, or else the token exhibits a valid signature on an input never signed in the history. The same on texts.", "quantifier": "every finite history of sign calls, every candidate token, every assertion", "why_tests_cant": "quantifies over adversarial tokens and over histories", "anchors": ["src/purpose/public/mod.rs", "src/purpose/public/v3.rs", "src/purpose/public/v4.rs", "src/pae.rs"]}
{"id": "C15", "title": "pre-authentication encoding is unambiguous", "statement": "Two different lists of byte-string pieces never have the same pre-authentication encoding, and the encoding of a piece does not depend on how its bytes are split into slices; it equals the PAE of the PASETO specification for every length below 2^63.", "quantifier": "every pair of lists of byte strings", "why_tests_cant": "injectivity is a property of all pairs", "anchors": ["src/pae.rs: pae, write_piece"]}
{"id": "C16", "title": "authentication and key-derivation inputs are separated by domain", "statement": "Inputs authenticated for tokens of different version, purpose or payload-encoding suffix never coincide; nor do the inputs from which token, wrapping, password-wrapping and sealing operations derive encryption keys, authentication keys, nonces and key identifiers: equal inputs to a primitive mean the same operation, the same role and the same ingredients.", "quantifier": "every pair of version/purpose/suffix combinations, all nonces, messages, footers, assertions", "why_tests_cant": "ranges over all pairs of inputs", "anchors": ["src/purpose/local/mod.rs: generic_digest, generic_encrypt", "src/purpose/public/v3.rs: digest", "src/purpose/public/v4.rs: preauth", "src/paserk/wrap.rs: wrap_pie_with_rng"]}
{"id": "C17", "title": "each encryption consumes and embeds fresh RNG output", "statement": "Each encryption takes exactly 32 bytes from the RNG and embeds them unchanged as the first 32 payload bytes; in any sequence of encryptions from one RNG the i-th token's nonce is the i-th disjoint 32-byte block of RNG output, so nonces repeat only if the RNG output does.", "quantifier": "every RNG output stream, every sequence of encryptions", "why_tests_cant": "quantifies over histories of calls", "anchors": ["src/purpose/local/mod.rs: encrypt_with_assertions_and_rng, sandwich"]}
{"id": "C18", "title": "footer encodings behave as documented", "statement": "The unit footer accepts exactly an absent or empty footer; Vec<u8> accepts every footer and returns it unchanged; Json<T> rejects an empty footer as missing and otherwise defers to JSON, where a struct with one string field (the crate's and the documentation's own footers) is read exactly from the RFC 8259 texts that contain the field once with that string; the footer is authenticated as the raw received bytes, not a re-encoding.", "quantifier": "every footer byte string and footer type", "why_tests_cant": "all byte strings", "anchors": ["src/lib.rs: impl Footer for Json<T>, Vec<u8>, ()"]}
{"id": "C19", "title": "validation returns the footer shown before validation and builders preserve their contents", "statement": "The footer of a decrypted/verified token is the one unverified_footer() showed; with_footer and with_encoding change only the footer/encoding and keep the message; a new builder has no footer.", "quantifier": "every token, message, footer, encoding", "why_tests_cant": "all values of generic types", "anchors": ["src/lib.rs: tokens::TokenBuilder, SecuredToken::unverified_footer", "src/purpose/local/mod.rs", "src/purpose/public/mod.rs"]}
{"id": "C20", "title": "the assertion-free API is the empty-assertion API", "statement": "encrypt/decrypt/sign/verify without assertions produce and accept exactly what the *_with_assertions variants do with an empty assertion.", "quantifier": "every token, key and message", "why_tests_cant": "equality of two functions over all inputs", "anchors": ["src/purpose/local/mod.rs: encrypt, decrypt", "src/purpose/public/mod.rs: sign, verify"]}
{"id": "C21", "title": "token sizes and layout are exact", "statement": "A local payload is nonce (32) then ciphertext of the message's length then tag (48 in V3, 32 in V4); a public payload is the message bytes in clear followed by a 96 (V3) or 64 (V4) byte signature.", "quantifier": "every message", "why_tests_cant": "every length", "anchors": ["src/purpose/local/mod.rs: sandwich, encrypt_inner", "src/purpose/public/mod.rs: sign_with_assertions"]}
{"id": "C22", "title": "base64url encoding is exact, invertible and canonical", "statement": "The text encoding of bytes is RFC 4648 unpadded base64url; decoding accepts a string if and only if it is the encoding of some bytes and returns those bytes, so no two strings decode to the same bytes.", "quantifier": "every byte string and every text", "why_tests_cant": "all strings, including all non-canonical trailing bits and lengths", "anchors": ["src/lib.rs: base64ct::Base64UrlUnpadded uses", "src/paserk/mod.rs: write_b64, read_b64"]}
{"id": "C23", "title": "chunked writing of PASERK data equals one-shot encoding and never panics", "statement": "Writing key data in 48-byte chunks through a 64-byte buffer yields exactly the base64url encoding of the whole data for every length, and the internal unwrap never fails.", "quantifier": "every byte string of every length", "why_tests_cant": "all lengths, in particular around chunk boundaries", "anchors": ["src/paserk/mod.rs: write_b64"]}
{"id": "C24", "title": "fixed-size reading accepts exactly canonical encodings of that size", "statement": "Reading N bytes of PASERK data succeeds if and only if the text is the canonical encoding of exactly N bytes; the early length check never rejects valid text; every other text gives Base64DecodeError.", "quantifier": "every text and every size N", "why_tests_cant": "all texts and sizes", "anchors": ["src/paserk/mod.rs: read_b64"]}
{"id": "C25", "title": "plaintext PASERK keys round-trip", "statement": "Printing any local, public or secret key as a plaintext PASERK and parsing the text gives back an equal key, in both versions.", "quantifier": "every key of every type and version", "why_tests_cant": "all keys", "anchors": ["src/paserk/plaintext.rs: Display, FromStr"]}
{"id": "C26", "title": "plaintext PASERK text is canonical, except for one alternative form of V3 public keys", "statement": "Any text that parses as a plaintext key is exactly what printing that key yields; the only exception is a V3 public key whose 49 bytes are the SEC1 compact form (tag 5), which parses and prints with tag 2 or 3.", "quantifier": "every text", "why_tests_cant": "all alternative spellings", "anchors": ["src/paserk/plaintext.rs: FromStr", "src/purpose/public/v3.rs: from_public_bytes, to_public_bytes"]}
{"id": "C27", "title": "raw key bytes round-trip and decide equality", "statement": "Building a key from raw bytes and reading its raw bytes are inverse to each other wherever the constructor accepts (for V3 public keys reading gives the compressed form of the point that was given); two keys compare equal exactly when their raw bytes are equal, and this is an equivalence relation.", "quantifier": "every key and byte string", "why_tests_cant": "all keys", "anchors": ["src/key/convert.rs", "src/key/mod.rs: PartialEq"]}
{"id": "C28", "title": "inconsistent or malformed key material is rejected with InvalidKey", "statement": "A V4 secret key is accepted only as exactly 64 bytes whose second half is the public key of the first half; a V4 public key only as a 32-byte valid point; a V3 secret key (48 bytes) only if it is a scalar in [1, n-1]; all else gives InvalidKey and never a panic.", "quantifier": "every byte string", "why_tests_cant": "all byte strings of all lengths", "anchors": ["src/key/convert.rs: from_keypair_bytes, from_public_key, from_bytes", "src/purpose/public/v4.rs: from_secret_bytes", "src/purpose/public/v3.rs: from_secret_bytes"]}
{"id": "C29", "title": "key ids round-trip and are canonical text", "statement": "Printing a key id and parsing gives the same id; a text that parses is exactly what the id prints as; Debug output equals Display output.", "quantifier": "every key id and every text", "why_tests_cant": "all texts", "anchors": ["src/paserk/id.rs: Display, FromStr, Debug"]}
{"id": "C30", "title": "key ids are those of the PASERK specification and computing one never panics", "statement": "The id of a key is the 33-byte hash (SHA-384 truncated / BLAKE2b-33) of the id header followed by the key's plaintext PASERK text, for all six key types; the fixed scratch buffers are always large enough.", "quantifier": "every key of every type and version", "why_tests_cant": "all keys; buffer sufficiency for all key lengths", "anchors": ["src/paserk/id.rs: From<&Key<V3,K>>, From<&Key<V4,K>>"]}
{"id": "C31", "title": "key-id comparison, ordering and hashing are lawful and agree with the text", "statement": "Key-id equality holds exactly when the printed texts are equal; ordering is a total order consistent with equality; equal ids hash equally.", "quantifier": "all triples of key ids", "why_tests_cant": "order laws range over all triples", "anchors": ["src/paserk/id.rs: Ord, PartialEq, Hash"]}
{"id": "C32", "title": "ids of different keys, key types or versions coincide only on a hash collision", "statement": "If two keys of any types within one version have the same id then they are the same key of the same type, or the two distinct hashed strings are a collision of the (truncated) hash.", "quantifier": "every pair of keys of any types", "why_tests_cant": "all pairs", "anchors": ["src/paserk/id.rs"]}
{"id": "C33", "title": "PIE-wrapped keys round-trip", "statement": "Wrapping any local or secret key under any wrapping key, printing, parsing and unwrapping with the same wrapping key gives back an equal key, in both versions.", "quantifier": "every key, wrapping key and RNG output", "why_tests_cant": "all keys, nonces", "anchors": ["src/paserk/wrap.rs: wrap_pie_with_rng, unwrap_key, Display, FromStr"]}
{"id": "C34", "title": "PIE wrapping has the PASERK wire format, with the same exact exception in V3", "statement": "The wrapped text is byte for byte that of the PASERK PIE wrap procedure (V3: AES-256-CTR, HMAC-SHA384; V4: XChaCha20, BLAKE2b), and unwrapping inverts exactly that procedure. For V3 with a counter in the last 64 bits of the block: equal to the standard text exactly when the two key streams agree on the key's bytes.", "quantifier": "every key, wrapping key and nonce", "why_tests_cant": "all inputs", "anchors": ["src/paserk/wrap.rs"]}
{"id": "C35", "title": "tampered, re-typed or wrongly keyed PIE wraps are rejected", "statement": "Unwrapping succeeds past authentication only if the tag equals the MAC of header, nonce and ciphertext under the key derived from this wrapping key and nonce; changing nonce, ciphertext, tag, key type or version yields CryptoError unless the MAC collides; over any history of wraps acceptance of anything not produced exhibits a MAC forgery.", "quantifier": "every wrapped text, wrapping key, modification and history", "why_tests_cant": "adversarial inputs and histories", "anchors": ["src/paserk/wrap.rs: unwrap_key"]}
{"id": "C36", "title": "unwrapping PIE keys never panics", "statement": "For every text that parses as a wrapped key and every wrapping key, unwrapping returns Ok, CryptoError or InvalidKey.", "quantifier": "every text and wrapping key", "why_tests_cant": "all inputs", "anchors": ["src/paserk/wrap.rs: unwrap_key"]}
{"id": "C37", "title": "password-wrapped keys round-trip", "statement": "Wrapping any key with any password and valid settings, printing, parsing and unwrapping with the same password gives back an equal key.", "quantifier": "every key, password, RNG output and valid KDF settings", "why_tests_cant": "all passwords, settings and keys; the KDF is too slow to sample", "anchors": ["src/paserk/pbkw.rs"]}
{"id": "C38", "title": "password wrapping has the PASERK wire format, with the same exact exception in V3", "statement": "The wrapped text is byte for byte that of the PASERK PBKW procedure for those settings, salt and nonce, and unwrapping inverts exactly that procedure. For V3 with a counter in the last 64 bits of the block: equal to the standard text exactly when the two key streams agree on the key's bytes.", "quantifier": "every key, password, settings, salt and nonce", "why_tests_cant": "all inputs", "anchors": ["src/paserk/pbkw.rs: pw_wrap_with_settings_and_rng, encode_state"]}
{"id": "C39", "title": "password-wrap settings are stored and reported before any KDF work", "statement": "settings() of a parsed text reports the parameters used for wrapping and the ones unwrapping will use, so a caller can refuse expensive parameters before unwrapping. Without settings the documented defaults are used (V3: 100,000 rounds; V4: 64 MiB, 2 passes, 1 lane). They are the encoded ones, except that V4 reports (and uses) the encoded 64-bit memory size modulo 2^32.", "quantifier": "every settings value and every text", "why_tests_cant": "all 2^96 parameter triples", "anchors": ["src/paserk/pbkw.rs: settings, encode_state, decode_state"]}
{"id": "C40", "title": "password-wrapped text is canonical, except for four ignored bytes in V4", "statement": "Any text that parses as a password-wrapped key is exactly what printing that wrapped key yields, and two different texts never parse to the same wrapped key. In V4 this holds exactly for the texts whose upper half of the 64-bit memory parameter is zero: the code discards these four bytes, so 2^32 texts parse to the same wrapped key.", "quantifier": "every pair of texts", "why_tests_cant": "all alternative spellings", "anchors": ["src/paserk/pbkw.rs: decode_state (V4, _mem1)"]}
{"id": "C41", "title": "unwrapping a password-wrapped key returns a Result, except for bad Argon2 parameters, where it panics", "statement": "For every parsed text and password, unwrapping returns a Result; the only exception is V4 with Argon2 parameters out of range or a password over 2^32-1 bytes, for which it always panics. So the wanted property 'unwrapping never panics' is false of the V4 code.", "quantifier": "every text and password", "why_tests_cant": "all inputs", "anchors": ["src/paserk/pbkw.rs: kdf (Params::new(..).unwrap())"]}
{"id": "C42", "title": "tampered password wraps or wrong passwords are rejected", "statement": "Unwrapping gets past authentication only if the tag is the MAC, under the key derived from this password, of header, salt, parameters, nonce and ciphertext; modifying any of these yields CryptoError unless the MAC collides. On texts: changing any character makes parsing or unwrapping fail, except, in V4, in the four ignored bytes of the memory parameter.", "quantifier": "every text, password and modification", "why_tests_cant": "adversarial inputs", "anchors": ["src/paserk/pbkw.rs: unwrap_key"]}
{"id": "C43", "title": "sealed keys round-trip", "statement": "Sealing any local key to any public key, printing, parsing and unsealing with the matching secret key gives back an equal key, in both versions.", "quantifier": "every local key, key pair and RNG output", "why_tests_cant": "all keys", "anchors": ["src/paserk/pke.rs: seal, unseal, split_total, join_total"]}
{"id": "C44", "title": "sealing has the PASERK wire format, with exact exceptions", "statement": "The sealed text is byte for byte that of the PASERK PKE seal procedure for that ephemeral key, and unsealing inverts exactly that procedure. V3 uses a counter in the last 64 bits of the block: equal to the standard text exactly when the two key streams agree. V4 multiplies by the X25519 scalar reduced modulo the group order: the shared secret is that of X25519 for every ephemeral secret exactly for the recipient keys that are multiples of the base point (in particular for all that come from a secret key) and for the point of order two, and for these the text is the standard's.", "quantifier": "every local key, public key and ephemeral key", "why_tests_cant": "all inputs", "anchors": ["src/paserk/pke.rs"]}
{"id": "C45", "title": "tampered or misdirected seals are rejected", "statement": "Unsealing gets past authentication only if the tag is the MAC of header, ephemeral key and ciphertext under the key derived for this recipient; modifying any part yields CryptoError unless the MAC collides.", "quantifier": "every sealed text, secret key and modification", "why_tests_cant": "adversarial inputs", "anchors": ["src/paserk/pke.rs: unseal"]}
{"id": "C46", "title": "unsealing returns a Result, except for invalid V3 ephemeral keys, where it panics", "statement": "For every parsed sealed key and secret key, unsealing returns a Result; the only exception is V3 when the 49 ephemeral-key bytes are not a valid SEC1 point, for which it always panics. So the wanted property 'unsealing never panics' is false of the V3 code.", "quantifier": "every text and secret key", "why_tests_cant": "all inputs; the fuzz targets only unseal honest seals", "anchors": ["src/paserk/pke.rs: V3::unseal (PublicKey::from_sec1_bytes(..).unwrap())"]}
{"id": "C47", "title": "PASERK text determines version and type", "statement": "No string is accepted by two different PASERK parsers (11 types times 2 versions), nor by both a PASETO and a PASERK parser.", "quantifier": "every string, every pair of parsers", "why_tests_cant": "ranges over all strings", "anchors": ["src/paserk/plaintext.rs: FromStr", "src/paserk/id.rs: FromStr", "src/paserk/wrap.rs: FromStr", "src/paserk/pbkw.rs: FromStr", "src/paserk/pke.rs: FromStr", "src/lib.rs: FromStr"]}
{"id": "C48", "title": "parsers are total and report errors by a fixed precedence", "statement": "Every parser returns for every string without panicking; a wrong header gives InvalidToken regardless of the rest, then bad base64 or length gives Base64DecodeError, then a bad footer gives PayloadError or bad key material InvalidKey; no other error is possible.", "quantifier": "every string and every parser", "why_tests_cant": "all strings", "anchors": ["src/lib.rs: FromStr", "src/paserk/plaintext.rs: FromStr", "src/paserk/id.rs: FromStr", "src/paserk/wrap.rs: FromStr", "src/paserk/pbkw.rs: FromStr", "src/paserk/pke.rs: FromStr"]}
{"id": "C49", "title": "serde form is the text form", "statement": "Serializing any token, key, id or wrapped key yields its printed text as a string, and deserializing a string accepts exactly what parsing accepts with the same result; non-strings are rejected.", "quantifier": "every value and every serialized input", "why_tests_cant": "all values", "anchors": ["src/lib.rs: Serialize, Deserialize", "src/paserk/plaintext.rs: Serialize, Deserialize", "src/paserk/id.rs: Serialize, Deserialize", "src/paserk/wrap.rs: Serialize, Deserialize", "src/paserk/pbkw.rs: Serialize, Deserialize", "src/paserk/pke.rs: Serialize, Deserialize"]}
{"id": "C50", "title": "key rotation by key id works", "statement": "With any set of registered public keys whose ids do not collide, a token whose footer carries the id of its signer is verified, after printing and parsing, by looking up the footer's id, and the looked-up key is the signer's (if signing did not panic, see C02).", "quantifier": "every set of keys, signer in the set, message", "why_tests_cant": "all key sets", "anchors": ["src/lib.rs: crate documentation example", "src/paserk/id.rs"]}
{"id": "C51", "title": "recovered keys are interchangeable with the originals", "statement": "A local key recovered from a plaintext, PIE-wrapped, password-wrapped or sealed form decrypts every token the original encrypted, and a recovered secret key has the same public key and signs identically.", "quantifier": "every key, transport form and token", "why_tests_cant": "composition of unbounded operations", "anchors": ["src/paserk/plaintext.rs", "src/paserk/id.rs", "src/paserk/wrap.rs", "src/paserk/pbkw.rs", "src/paserk/pke.rs", "src/purpose/local/mod.rs", "src/purpose/public/mod.rs"]}
{"id": "C52", "title": "debug output never contains key material", "statement": "Formatting a key with Debug (outside fuzzing builds) gives the same text for all keys.", "quantifier": "every pair of keys", "why_tests_cant": "all keys", "anchors": ["src/key/mod.rs: Debug"]}
{"id": "C53", "title": "errors expose a source only for payload errors", "statement": "source() is present exactly for PayloadError, and the displayed text of every other variant is a constant independent of keys and inputs.", "quantifier": "every error value", "why_tests_cant": "all payload errors", "anchors": ["src/lib.rs: PasetoError"]}
{"id": "C54", "title": "the fuzz harness assertions hold for every input", "statement": "For every key, RNG output and strings, the harnesses' encrypt/print/parse/decrypt, sign/verify, wrap/unwrap and seal/unseal checks succeed without panic (V3 sign/verify: if signing itself does not panic, see C02).", "quantifier": "every harness input", "why_tests_cant": "the fuzzers sample; this is all inputs", "anchors": ["src/lib.rs: fuzzing", "src/paserk/wrap.rs: fuzz_tests", "src/paserk/pke.rs: fuzz_tests"]}
{"id": "C55", "title": "the steps of verification do not show where a forgery differs", "statement": "The sequence of steps taken while decrypting or verifying a token or unwrapping a key (primitive calls with their lengths, positions compared, branches, decoder calls) depends only on the lengths of the inputs, the public parameters and on whether the input is authentic: not on keys, passwords, contents or the position at which a wrong tag differs; a rejected input is never decrypted.", "quantifier": "every pair of tokens or wrapped keys of equal lengths, every key, password and assertion", "why_tests_cant": "a relation between all pairs of runs; timing and memory contents are not visible to tests", "anchors": ["src/purpose/local/mod.rs: generic_decrypt, decrypt_with_assertions", "src/purpose/public/mod.rs: verify_with_assertions", "src/paserk/wrap.rs: unwrap_key", "src/paserk/pbkw.rs: unwrap_key", "src/paserk/pke.rs: unseal"]}
{"id": "C56", "title": "printing into any receiver delivers exactly the text", "statement": "Printing a token, a plaintext key, a key id or a wrapped or sealed key into any formatter receiver sends the pieces of one fixed text in order and stops at the first refused write, whose error is returned; what was delivered is then a prefix of the text. It never panics, ignores width, fill, precision and the alternate flag, succeeds on a bounded buffer exactly when the text fits, and gives the same text when repeated. The JSON form is that text in quotes and reads back to the same value; in general a JSON text is read exactly when it is one RFC 8259 string literal, among white space only, for a text that parses; a JSON value of the wrong type is refused with a message quoting the accepted prefix.", "quantifier": "every value of the six printable types, every fmt::Write receiver (failing at any point), all formatting options", "why_tests_cant": "ranges over all receivers and all failure points", "anchors": ["src/lib.rs: Display for SecuredToken", "src/paserk/plaintext.rs: Display, Serialize, Deserialize", "src/paserk/id.rs: Display, Serialize, Deserialize", "src/paserk/wrap.rs: Display, Serialize, Deserialize", "src/paserk/pbkw.rs: Display, Serialize, Deserialize", "src/paserk/pke.rs: Display, Serialize, Deserialize"]}
{"id": "C57", "title": "tokens, wrapped keys and sealed keys hide their contents", "statement": "Watching any sequence of encryptions, key wrappings, password wrappings and sealings, one cannot tell which of two contents of equal length each operation had: as long as the operations use distinct cipher keys, the same texts come out of the other contents if the ciphers (AES, XChaCha20) are exchanged under exactly those keys, with all keys, nonces, tags, footers and random bytes the same. Only lengths show, and a nonce used twice gives away the xor of the messages.", "quantifier": "every sequence of the four operations, all keys, passwords, footers, assertions, random bytes and all pairs of contents of equal length", "why_tests_cant": "a statement about all alternative contents and all ciphers; no run shows what is not revealed", "anchors": ["src/purpose/local/mod.rs: encrypt_inner, generic_encrypt", "src/paserk/wrap.rs: wrap_pie_with_rng", "src/paserk/pbkw.rs: pw_wrap_with_settings_and_rng", "src/paserk/pke.rs: seal"]}
{"id": "C58", "title": "random sources are used in whole, disjoint, ordered blocks", "statement": "Key generation, encryption, wrapping, password wrapping and sealing work with every random source; each draws blocks of fixed sizes (32; salt then nonce; 48 until accepted), and its result is a function of exactly those bytes. In any sequence of operations on one source the segments used are disjoint, consecutive and in order, nothing is drawn and dropped. With too few bytes the operation panics and never uses a short nonce or key. The crate's FakeRng is such a source (its bytes from its position on), and its Arbitrary instances produce every key and every FakeRng.", "quantifier": "every RngCore implementation and state, every sequence of operations, every fuzzer input", "why_tests_cant": "ranges over all sources and histories", "anchors": ["src/key/convert.rs: new_random", "src/purpose/local/mod.rs: encrypt_with_assertions_and_rng", "src/paserk/wrap.rs: _with_rng", "src/paserk/pbkw.rs: pw_wrap_with_settings_and_rng", "src/paserk/pke.rs: _with_rng", "src/lib.rs: FakeRng", "src/key/arbitrary.rs"]}
{"id": "C59", "title": "compiled code is constant time and dropped keys are cleared from memory", "statement": "The machine code takes time independent of secrets, and the memory of a key is overwritten when the key is dropped.", "quantifier": "every compiled execution on every supported machine", "why_tests_cant": "timing on all inputs and leftover memory are not observable through the API", "anchors": ["Cargo.toml: chacha20 feature zeroize", "src/key/mod.rs: Key"]}
{"id": "C60", "title": "a token is accepted only under its own key", "statement": "A local token that decrypts under one key gives CryptoError under every other key, unless the two keys derive the same authentication key for its nonce or two authentication keys give the same MAC of it. A public token that verifies under one public key gives CryptoError under every other, unless its signature is valid under both keys; in V3 the two keys then sign different bytes, because the signed bytes name the key.", "quantifier": "all pairs of different keys, all tokens, encodings, footers and assertions", "why_tests_cant": "ranges over all other keys", "anchors": ["src/purpose/local/mod.rs: decrypt_with_assertions, generic_decrypt", "src/purpose/public/mod.rs: verify_with_assertions", "src/pae.rs"]}
{"id": "C61", "title": "one key may both encrypt tokens and wrap keys", "statement": "After any interleaving of token encryptions and PIE key wraps under one symmetric key, a token or wrapped key that passes authentication under that key was made by one of those operations, or its tag is the MAC of an input that no operation of either kind has computed. Using the key for one purpose does not help to forge the other.", "quantifier": "every interleaving of both operations, every forged token or wrapped key", "why_tests_cant": "ranges over all histories and all forgeries", "anchors": ["src/purpose/local/mod.rs: encrypt_inner, decrypt_with_assertions", "src/paserk/wrap.rs: wrap_pie_with_rng, unwrap_key"]}
{"id": "C62", "title": "the round trips hold for the actual algorithms", "statement": "With the actual SHA-2, HMAC, HKDF, AES, PBKDF2, BLAKE2b, XChaCha20, Argon2id, Ed25519, X25519 and P-384, and no assumption about any of them: a signed token printed, parsed and verified under the signer's public key gives back the message and footer (V4 always, V3 whenever signing succeeds); a key printed as PASERK text parses back to itself; a key wrapped with PIE, with a password or sealed to a public key, printed, parsed and opened gives back the same key; a key that travels through any chain of those is unchanged.", "quantifier": "all keys, messages, footers, assertions, passwords, settings, random bytes and chains of wrappings", "why_tests_cant": "rests on the group laws of Curve25519 and P-384 for all points and all scalars; a test signs with a few keys", "anchors": ["src/purpose/public/mod.rs: sign, verify", "src/paserk/plaintext.rs", "src/paserk/wrap.rs", "src/paserk/pbkw.rs", "src/paserk/pke.rs"]}
{"id": "C63", "title": "what a third party can change in a signature", "statement": "V3: from every accepted public token anyone can make, without a key, a different token text with the same footer and the same outcome under the same key and assertion (ECDSA signatures are not unique), so V3 token texts must not be used as unique identifiers, for instance in a revocation list. V4: the second half of the signature is determined by everything else, so it cannot be changed.", "quantifier": "all accepted tokens, keys, assertions and encodings", "why_tests_cant": "ranges over all tokens and all changed signatures", "anchors": ["src/purpose/public/mod.rs: verify_with_assertions", "src/purpose/public/v3.rs: verify", "src/lib.rs: FromStr for SecuredToken"]}
{"id": "C64", "title": "the V4 public key parser takes a key under which everything verifies", "statement": "The text k4.public.AQAAAAAAAAAAAAAAAAAAAAAAAAAAAAAAAAAAAAAAAAA parses as a V4 public key, and under that key one fixed signature is accepted for every message, footer, assertion and payload encoding. A public key taken from an untrusted party says nothing about who signed.", "quantifier": "all messages, footers, assertions and encodings", "why_tests_cant": "ranges over all messages; needs the group law", "anchors": ["src/key/convert.rs: Key<V4, Public>::from_bytes", "src/paserk/plaintext.rs: FromStr", "src/purpose/public/mod.rs: verify_with_assertions"]}
{"id": "C65", "title": "a V3 public key belongs to one secret key", "statement": "Two different V3 secret keys have different public keys, and different public key texts; and every V3 public key the code accepts is the public key of a secret key.", "quantifier": "all pairs of V3 secret keys", "why_tests_cant": "ranges over all pairs of keys; needs the order of the P-384 base point", "anchors": ["src/key/convert.rs: public_key", "src/paserk/plaintext.rs: Display"]}
{"id": "C66", "title": "key files are read as the key they hold", "statement": "A standard PEM file (RFC 7468) with a V3 secret key (RFC 5915) is read by from_sec1_pem as exactly that key, with or without the curve and the public key in the file, with LF or CRLF line ends; if the file holds a public key that does not belong to the secret one, or private key bytes that from_bytes refuses, it is InvalidKey. A standard file with a V3 public key (RFC 5480) is read by from_public_key_pem as exactly that key in compressed or uncompressed form; another algorithm or curve is InvalidKey, as is a file with another label; whatever a file with either label holds, if it is read then it is exactly the DER of such a key (a secret one of version 1), with nothing before or after. from_sec1_bytes accepts exactly the compressed, uncompressed and (even y) compact forms of points of P-384. Exception: the curve named in a secret key file is not looked at.", "quantifier": "all keys, files in the standard layout, object identifiers and point encodings", "why_tests_cant": "ranges over all keys, all files and all byte strings; needs the arithmetic of the curve", "anchors": ["src/key/convert.rs: from_sec1_pem, from_public_key_pem, from_sec1_bytes, from_bytes"]}
{"id": "C67", "title": "PASERK texts have fixed sizes; texts are URL-safe", "statement": "The text of a PASERK has a number of characters that depends only on its version and type (local keys 52, public keys 76 in V3 and 53 in V4, secret keys 74 and 96, key ids 51, PIE-wrapped local keys 168 and 146, PIE-wrapped secret keys 190, password-wrapped local keys 188 and 172, password-wrapped secret keys 211 and 216, sealed keys 180 and 136), both when it is printed and when it is accepted by a parser. Every character of a PASERK, and of a token if the payload encoding's suffix has none other, printed or accepted, is one of the unreserved characters of RFC 3986, so that it can stand in a URL, header or file name unescaped.", "quantifier": "all keys, ids, wrapped and sealed keys, all accepted texts, all tokens", "why_tests_cant": "ranges over all values of all types and all texts", "anchors": ["src/paserk/plaintext.rs: Display, FromStr", "src/paserk/id.rs: Display, FromStr", "src/paserk/wrap.rs: Display, FromStr", "src/paserk/pbkw.rs: Display, FromStr", "src/paserk/pke.rs: Display, FromStr", "src/lib.rs: Display and FromStr of SecuredToken"]}
{"id": "C68", "title": "which V4 secret keys share a public key", "statement": "Two V4 secret keys have the same public key (value or text) exactly when the SHA-512 hashes of their seeds agree in bits 3 to 253, so a second secret key for a public key is a collision of that part of SHA-512. As recipients of sealed keys, where the public key is taken in its X25519 form, two V4 secret keys are indistinguishable exactly when those bits are equal or the two scalars are opposite modulo the group order; two V3 secret keys never are.", "quantifier": "all pairs of secret keys", "why_tests_cant": "ranges over all pairs of 256-bit seeds", "anchors": ["src/key/convert.rs: Key<V4, Secret>::public_key", "src/paserk/pke.rs: V4::seal, V4::unseal"]}
{"id": "C69", "title": "sealed keys repeat only if the ephemeral secret repeats", "statement": "Two calls of seal, for any keys and any recipients, print different texts unless they drew the same ephemeral secret. V3: the ephemeral public keys are equal exactly when the drawn scalars are. V4: exactly when the clamped scalars are equal or sum to eight times the group order.", "quantifier": "all pairs of local keys, recipients and random sources", "why_tests_cant": "ranges over all random outputs and keys", "anchors": ["src/paserk/pke.rs: V3::seal, V4::seal, Key::seal_with_rng"]}
{"id": "C70", "title": "keys sealed to a weak V4 public key can be read by anyone", "statement": "The text k4.public.AQAAAAAAAAAAAAAAAAAAAAAAAAAAAAAAAAAAAAAAAAA (the neutral element) is accepted as a public key, sealing to it succeeds, and every local key sealed to it can be computed from the sealed text alone, without any secret. A local key sealed to any public key of small order is opened by one of four known shared secrets. (This is behaviour a user should know of: the public key parser does not reject small-order points.)", "quantifier": "all local keys, all random sources", "why_tests_cant": "ranges over all keys and random outputs", "anchors": ["src/paserk/plaintext.rs: FromStr for PlaintextKey", "src/paserk/pke.rs: V4::seal"]}
{"id": "C71", "title": "some different V3 passwords are the same password", "statement": "A V3 password-wrapped key opens with exactly the same results under any two passwords that stand for the same HMAC-SHA384 key: zero bytes at the end of a password of up to 128 bytes make no difference, and a password of more than 128 bytes can be replaced by its SHA-384 hash. So the wanted property 'a wrapped key opens with no password but its own' is false in V3 for every password that is not exactly 128 bytes long; among passwords of up to 128 bytes trailing zeros are the only way to stand for the same HMAC key. The key that a V3 password gives is the one of PBKDF2 in RFC 8018 with HMAC-SHA384 and the stored iteration count, where a count of zero gives the same key as one. V4 has no such exception: for each setting the derived key is one function of one hash, whose inputs differ for different passwords.", "quantifier": "all passwords, all wrapped keys", "why_tests_cant": "ranges over all passwords and wrapped keys", "anchors": ["src/paserk/pbkw.rs: PwVersion for V3::kdf, PwVersion for V4::kdf, unwrap_key, pw_wrap_with_settings_and_rng"]}
{"id": "C72", "title": "one signature is for one message", "statement": "Two accepted public tokens with the same signature bytes under the same public key carry the same message, footer, implicit assertion and encoding, or else a hash collision can be read off them. For V4 this holds under every public key that is not one of the points of small order (the collision is one of SHA-512 modulo the group order, on inputs that include the key); public keys that come from a secret key are never of small order, but the parser accepts every key that is, and under such a key a fixed signature that needs no secret is valid for every message whose challenge is divisible by 8. For V3 (signatures whose first number is at least 2^190) the alternative to a collision of SHA-384 modulo the group order is that the secret key satisfies a linear equation whose coefficients are read off the two tokens.", "quantifier": "all keys, all pairs of tokens, footers, assertions, encodings", "why_tests_cant": "ranges over all tokens and keys; tests can only try signatures they know", "anchors": ["src/purpose/public/mod.rs: SecuredToken::verify_with_assertions", "src/purpose/public/v4.rs", "src/purpose/public/v3.rs", "src/paserk/plaintext.rs: FromStr for PlaintextKey"]}
{"id": "C73", "title": "an authentication tag commits to the key and to everything else", "statement": "Two local tokens with the same tag, accepted under any two keys with any two implicit assertions and any two payload encodings, have the same key, nonce, ciphertext, footer, assertion and encoding; otherwise two different ones of the at most twelve hash inputs that checking these two tags computes have the same SHA-384 (V3) or keyed BLAKE2b-256 (V4) hash. So no token can be made to open under two keys short of such a collision: a token that one key accepts gives CryptoError under every other key. The same for PIE-wrapped keys (two wrapping keys; in V3 hashes that agree in 32 bytes, because the authentication key is cut to 32 bytes), for sealed keys (same sealed key, same opened key, same recipient) and for password-wrapped keys (same wrapped key, and both passwords derive the same key).", "quantifier": "all pairs of keys, tokens, footers, assertions, encodings, wrapped keys, sealed keys, passwords", "why_tests_cant": "the claim is that no pair of keys and ciphertexts exists; tests can only try pairs", "anchors": ["src/purpose/local/mod.rs: SecuredToken::decrypt_with_assertions", "src/purpose/local/v3.rs", "src/purpose/local/v4.rs", "src/paserk/wrap.rs: PieWrappedKey::unwrap_key", "src/paserk/pke.rs: SealedKey::unseal", "src/paserk/pbkw.rs: PwWrappedKey::unwrap_key"]}
{"id": "C74", "title": "chosen-ciphertext secrecy: opening other things does not reveal hidden contents", "statement": "Someone asks, in any order and each time depending on all answers so far, for one of two equally long candidates to be encrypted, wrapped, password-wrapped or sealed (always the left, or always the right one), and for any texts to be decrypted, unwrapped or unsealed under any keys; only opening a text that the game itself produced, with what opens it, is refused. Every transcript with the left candidates is also a transcript with the right candidates, with ciphers changed only under the cipher keys of the hidden texts, as long as these cipher keys are distinct and nothing authentic was opened under one of them. And something authentic that is not refused is a forgery: the MAC key and message its tag is checked against differ from those of every text hidden so far.", "quantifier": "all adaptive strategies, numbers of rounds, candidates, keys, passwords, texts, footers, assertions, random sources, ciphers", "why_tests_cant": "it ranges over all strategies and all sequences of requests, and says that what is observed does not depend on something", "anchors": ["src/purpose/local/mod.rs: UnencryptedToken::encrypt_with_assertions_and_rng, SecuredToken::decrypt_with_assertions", "src/paserk/wrap.rs: PieWrappedKey::wrap, unwrap_key", "src/paserk/pbkw.rs: PwWrappedKey::wrap_with_settings, unwrap_key", "src/paserk/pke.rs: SealedKey::seal, unseal"]}
{"id": "C75", "title": "with random bytes, nonces hardly ever repeat", "statement": "If all random bytes are equally likely, then whoever asks for n tokens and wrapped keys, choosing each request (key, message, key to hide) from the texts seen so far, sees a nonce twice with probability at most n(n-1)/2^257; for up to 2^64 operations this is at most 2^-129. When all requests can be served, the number of random sources without a repetition is exactly 2^256 (2^256 - 1) ... (2^256 - n + 1): the nonces are n independent blocks of the random source, neither reused nor shortened.", "quantifier": "all n, all adaptive strategies, all keys, messages, footers and encodings; counted over all random sources", "why_tests_cant": "it is about a probability of 2^-129 and about all strategies", "anchors": ["src/purpose/local/mod.rs: UnencryptedToken::encrypt_with_assertions_and_rng, generic_encrypt", "src/paserk/wrap.rs: PieWrappedKey::wrap"]}
{"id": "C76", "title": "of all tags exactly one is accepted", "statement": "For every local token, wrapped key, password-wrapped key and sealed key, and whatever key or password it is opened with, exactly one of all 2^384 (V3) or 2^256 (V4) values of the tag passes; every other value gives CryptoError. So a blindly guessed tag passes with probability 2^-384 or 2^-256, and tags are compared in full. (For passwords and seals: unless opening panics regardless of the tag, C41 and C46.)", "quantifier": "all versions, keys, passwords, nonces, ciphertexts, footers, assertions, parameters, ephemeral keys; all tags", "why_tests_cant": "there are 2^384 tags for each of infinitely many contents", "anchors": ["src/purpose/local/mod.rs: SecuredToken::decrypt_with_assertions", "src/purpose/local/v3.rs", "src/purpose/local/v4.rs", "src/paserk/wrap.rs: PieWrappedKey::unwrap_key", "src/paserk/pbkw.rs: PwWrappedKey::unwrap_key", "src/paserk/pke.rs: SealedKey::unseal"]}
{"id": "C77", "title": "the work of opening something is linear in its size, except what a password costs", "statement": "Decrypting or verifying a token, authentic or not, reads and writes at most three (two) times its payload, once its footer and assertion, and a constant number of further bytes; unwrapping with a key and unsealing take at most a constant amount of work. Unwrapping with a password computes exactly one password hash, with exactly the parameters that settings() reports before, and otherwise constant work; if it panics, nothing was computed. The parameters are those of the text: for all valid ones there is a text, of constant length, which has them computed before anything is authenticated.", "quantifier": "all tokens, wrapped and sealed keys, authentic or not, all keys, passwords, assertions; all valid parameters", "why_tests_cant": "a bound for all inputs of all sizes", "anchors": ["src/purpose/local/mod.rs: generic_decrypt, decrypt_with_assertions", "src/purpose/public/mod.rs: verify_with_assertions", "src/paserk/wrap.rs: unwrap_key", "src/paserk/pbkw.rs: unwrap_key, settings, kdf", "src/paserk/pke.rs: unseal"]}
{"id": "C78", "title": "a receiver whose keys change over time accepts exactly what the keys in force say", "statement": "A receiver keeps public keys in a map by their ids, as documented, and over time keys are entered and removed while anybody signs tokens. At every moment the map holds under an id exactly the key last entered under it and not removed since. A text is accepted only if the key named in its footer is in force at that moment; and if this is the public key of a secret key, then the message and footer it gives were signed by that secret key before, with no assertion, or the text carries a valid signature of bytes that this secret key never signed. A text that names a key not in force is never accepted, and the documented receiver panics on it. What is signed is accepted at every later moment at which the key is in force, and the answer to a text depends on nothing but the key in force.", "quantifier": "all histories of entering, removing and signing, all texts", "why_tests_cant": "all histories of any length, all texts", "anchors": ["src/lib.rs: documented usage (HashMap of KeyId)", "src/paserk/id.rs: KeyId, to_id", "src/purpose/public/mod.rs: sign, verify"]}
{"id": "C79", "title": "the receiver reads the claims that the signer wrote", "statement": "The documentation's payload (a struct with an expiry time and a subject, as JSON) is read exactly from the RFC 8259 texts in which each of the two fields occurs once with a text of its value, in any order and among other fields, or from an array of the two texts. A payload in which a field is missing or repeated is refused. A text has at most one meaning, and what is written is read back. Nothing but a text of both claims is ever written, and claims of which one cannot be written are not signed: there is an error and no token. So in the documented program the receiver gets the claims that were signed; the claims of any accepted token are those that its payload spells, and the footer spells the id of the key that accepted it; and if the key has only signed issued claims, an accepted token carries issued claims or a signature of bytes that the key never signed.", "quantifier": "all claims, all JSON texts, all keys, all histories of keys and signatures, all token texts", "why_tests_cant": "all texts; repeated fields can be spelt in endless ways (escapes, white space, order)", "anchors": ["src/lib.rs: documented usage (Payload, Footer)", "src/lib.rs: impl MessageEncoding, MessageDecoding for Json", "README.md"]}
{"id": "C80", "title": "messages of up to 256 GiB are handled, longer ones panic in V4 and only for those who have the key", "statement": "Encrypting and decrypting behave as the other properties say for every message of up to 64(2^32 - 1) bytes in V4 and 16(2^64 - 1) bytes (more than any memory) in V3, including the longest one. Encrypting a longer message panics. Decrypting a token with a longer message gives CryptoError if the token is not authentic and panics if it is, so that nobody without the key can cause this panic, and whatever was encrypted can be decrypted. Wrapping and sealing keys never meet the limit.", "quantifier": "all messages, tokens, keys, footers, assertions and encodings, without bound on their length", "why_tests_cant": "the limit lies beyond any message a test can allocate", "anchors": ["src/purpose/local/mod.rs: generic_encrypt, generic_decrypt, encrypt_inner, decrypt_with_assertions", "src/purpose/local/v4.rs: Cipher (XChaCha20)", "src/purpose/local/v3.rs: Cipher (Ctr64BE)"]}
{"id": "C81", "title": "forging takes 2^256 or 2^384 attempts if the MAC behaves like a random function", "statement": "Someone has tokens encrypted and keys wrapped under a key, as many as they like, choosing message, footer, assertion, the key to be wrapped and even the random bytes from all answers so far, and in between hands in q texts of their own to be decrypted or unwrapped under the key. Counted over all functions the MAC could be, the share for which one of these texts is accepted although it is not one they were given (for that assertion) is at most q / 2^384 in V3 and q / 2^256 in V4. The bound is attained for every q by guessing the tags of one text.", "quantifier": "all adaptive strategies, all numbers of requests and attempts, all keys, primitives, encodings, footers and assertions", "why_tests_cant": "a bound on the success of every strategy, counted over all functions", "anchors": ["src/purpose/local/mod.rs: encrypt_with_assertions_and_rng, decrypt_with_assertions, generic_encrypt, generic_decrypt, generic_digest", "src/paserk/wrap.rs: wrap_pie_with_rng, unwrap_key", "src/pae.rs: pae"]}
{"id": "C82", "title": "which of two messages is in a token can be told with an advantage of at most n(n-1)/2^256", "statement": "Someone has n tokens encrypted or keys wrapped under one key. Each request, chosen from the texts seen so far, comes with two candidates for what is hidden, of equal encoded length; it is always the left ones that are used or always the right ones. Counted over the nonces, the function deriving cipher keys from nonces and the cipher (for V3 the block function, for V4 the key stream), the chance of any conclusion from the texts differs between left and right by at most n(n-1)/2^256. The game always runs to its end. With two requests a difference of 1/2^256 is reached.", "quantifier": "all adaptive strategies, all conclusions, all numbers of requests, all keys, primitives, encodings, footers and assertions", "why_tests_cant": "a bound on every strategy, counted over all nonces, key derivations and ciphers", "anchors": ["src/purpose/local/mod.rs: encrypt_with_assertions_and_rng, generic_encrypt", "src/purpose/local/v3.rs: key_iv_init, encrypt", "src/purpose/local/v4.rs: key_iv_init, encrypt", "src/paserk/wrap.rs: wrap_pie_with_rng"]}
{"id": "C83", "title": "having texts decrypted or unwrapped does not help telling which of two messages is in a token", "statement": "As C82, and in between up to q texts are handed in to be decrypted or unwrapped under the key, with any footer type, message type and assertion; what comes out is told, except that texts issued in the game (for that assertion) are not opened. Counted over the nonces, the derived cipher keys, the cipher and the MAC that makes the tags, the chance of any conclusion from the answers differs between left and right by at most n(n-1)/2^256 + 2q/2^(8t), t being the tag length (48 in V3, 32 in V4). The game always runs to its end. The exception is needed: an issued wrapped key opens to the candidate that was used.", "quantifier": "all adaptive strategies, all conclusions, all numbers of requests and of openings, all keys, primitives, encodings, footers and assertions", "why_tests_cant": "a bound on every strategy, counted over all nonces, key derivations, ciphers and MACs", "anchors": ["src/purpose/local/mod.rs: encrypt_with_assertions_and_rng, decrypt_with_assertions, generic_encrypt, generic_decrypt, generic_digest", "src/lib.rs: SecuredToken::from_str", "src/paserk/wrap.rs: wrap_pie_with_rng, unwrap_key, from_str", "src/pae.rs: pae"]}
{"id": "C84", "title": "a password is found only by hashing passwords, one at a time", "statement": "Someone who does not know the password (one of N, equally likely) has any number of keys of their choice wrapped with it, has any number of texts of their choice unwrapped with it, choosing settings and random bytes too, and runs the password hash on at most q passwords, all adaptively. Counted over the passwords and over all password hashes (a function of password, salt and settings), the chance that the right password is among those hashed is at most q/N, and the chance to name it in the end at most (q+1)/N; hashing q passwords of the set reaches q/N. As long as neither of two passwords is hashed, every conclusion from the answers has the same chance with either. (The V3 hash identifies some passwords, see C71; such passwords count as one.)", "quantifier": "all adaptive strategies, all numbers of requests, all finite sets of passwords shorter than 2^32 bytes, all other primitives, both versions", "why_tests_cant": "a bound on every strategy, counted over all passwords and password hashes", "anchors": ["src/paserk/pbkw.rs: pw_wrap_with_settings_and_rng, unwrap_key, from_str, fmt, kdf"]}
{"id": "C85", "title": "keys with the same id are hard to find", "statement": "Someone asks for the ids of keys of their choice, of any kinds and given by any bytes, choosing each from the ids so far. Counted over all functions that could be the id hash, the chance that two different keys among q have the same id is at most q(q-1)/2 in 2^264, and the chance to find in q tries a key that has the id of one of m given keys without being one of them is at most q*m in 2^264. For two keys the chance is exactly one in 2^264, and the library's own hash is one of the functions counted.", "quantifier": "all adaptive strategies, all numbers of keys, all lists of given keys, all kinds of keys, all other primitives, both versions", "why_tests_cant": "a bound on every strategy, counted over all functions as id hash", "anchors": ["src/paserk/id.rs: to_id, From<&Key<V3, K>> for KeyId, From<&Key<V4, K>> for KeyId, fmt", "src/key/convert.rs: to_bytes, from_bytes"]}
{"id": "C86", "title": "nonces of signatures do not repeat, and a repeated one gives the key away", "statement": "If two tokens signed by the library, with any keys, have signatures whose first halves (the visible part of the secret nonce) are equal, then they were signed with the same key and have the same message, footer, assertion and payload encoding, or two different hash inputs that the theorem names collide; for V3 the only other way is that the two nonces are opposite modulo the group order. This matters: from two tokens that are accepted under a key, have equal first halves and different hashed messages, the secret key can be computed by a formula (for V3, one of two). (V3: for first halves of at least 2^190, of 2^384.)", "quantifier": "all pairs of keys, messages, footers, assertions, payload encodings and signatures, with the actual signature algorithms, both versions", "why_tests_cant": "about all pairs of signed tokens, and about what can be computed from any two accepted ones", "anchors": ["src/purpose/public/mod.rs: sign_with_assertions, verify_with_assertions", "src/purpose/public/v3.rs: sign, verify", "src/purpose/public/v4.rs: sign, verify"]}
{"id": "C87", "title": "the steps of hiding and signing do not depend on what is hidden or on keys", "statement": "Encrypting a token, signing a token, wrapping a key with a key or with a password, and sealing a key take steps (calls of primitives with their lengths, branches, key streams, random draws) that depend on the version, the type, the lengths of message, footer, assertion and password, and the password settings only: two runs that agree in these take the same steps whatever the keys, the contents, the passwords and the random bytes are. The one exception is sealing in V3, where the number of attempts at drawing the ephemeral key depends on the random bytes, and on nothing else. A message that cannot be encoded is refused before the key is used. The work is linear in the lengths, apart from the password hash.", "quantifier": "all keys, messages, footers, assertions, payload encodings, passwords, settings, random tapes, both versions", "why_tests_cant": "it compares the steps of all pairs of runs; a test sees results, not steps", "anchors": ["src/purpose/local/mod.rs: encrypt_with_assertions_and_rng, generic_encrypt", "src/purpose/public/mod.rs: sign_with_assertions", "src/paserk/wrap.rs: wrap_pie_with_rng", "src/paserk/pbkw.rs: pw_wrap_with_settings_and_rng", "src/paserk/pke.rs: seal_with_rng"]}
{"id": "C88", "title": "telling which key was sealed is computing the Diffie–Hellman secret", "statement": "One of two local keys, chosen by anyone, is sealed for a public key. Whoever sees the text, computes the key derivation hash, the cipher and the MAC, and has other texts unsealed with the secret key, in at most n requests chosen from the answers so far, tells the two cases apart with advantage at most: the chance of hashing the shared secret of the recipient's key and the ephemeral key, plus the chance of making another text with the same ephemeral key and a right tag, plus n/2^256. Both chances are those in a game whose text has nothing to do with the two keys. Whoever has nothing unsealed can be turned into an algorithm that computes the Diffie–Hellman secret of the two public keys: run without any secret key on a random text, it returns part of one of the n requests. Key derivation hash and cipher are random functions here. If the MAC is a random function too, the chance of making another text with a right tag is at most 2n/2^256, so that only the shared secret counts, also for those who have texts unsealed.", "quantifier": "all pairs of keys, all recipients, all sets of random tapes on which sealing succeeds, all adaptive strategies, all numbers of requests, all ways to guess, both versions", "why_tests_cant": "it is about every strategy and about probabilities over all hash functions and ciphers", "anchors": ["src/paserk/pke.rs: seal_with_rng, unseal, Display, FromStr", "src/key/convert.rs: public_key"]}
{"id": "C89", "title": "telling which key was wrapped with a password is guessing the password", "statement": "One of two keys, chosen by anyone, is wrapped with a password drawn from a set of W passwords, with any salt, any nonce and any settings that wrapping accepts. Whoever sees the text, runs the password hash at most q times, computes the key derivation hash, the cipher and the MAC, and has keys of their choice wrapped and texts of their choice unwrapped with the same password (not with the same salt and settings, and not the text itself), in at most n requests chosen from the answers so far, tells the two cases apart with advantage at most q/W, plus the chance of making another text with the same salt and settings and a right tag in a game that has nothing to do with the two keys, plus 2n/2^256. Whoever has nothing unwrapped has advantage at most q/W + 2n/2^256. Password hash, key derivation hash and cipher are random functions here. If the MAC is a random function too, everyone, also those who have texts unwrapped, has advantage at most q/W + 4n/2^256.", "quantifier": "all pairs of keys (local and secret), all sets of passwords, all settings, salts and nonces, all adaptive strategies, all numbers of requests, all ways to guess, both versions", "why_tests_cant": "it is about every strategy and about probabilities over all passwords, hash functions and ciphers", "anchors": ["src/paserk/pbkw.rs: pw_wrap_with_settings, unwrap_key, Display, FromStr, PwVersion::kdf, split_ek", "src/key/mod.rs: Key"]}
{"id": "C90", "title": "forging a version 4 public token is computing the secret key", "statement": "Someone has a version 4 public key. They have tokens of their choice signed with the secret key (any payload and footer type, any message, footer and implicit assertion) and compute the hash that makes the challenges of signatures, in at most n requests chosen from the answers so far, at most q of them for the hash. In the end they hand in a text and an assertion. They win if the text parses and its signature is accepted although no signing of that token for that assertion was requested; another signature on a signed message counts as well. From every such person one gets, by running them twice and nothing else, a computation of the secret scalar from the public key alone: if the person wins with chance p (over all functions that the two hashes could be), it succeeds with chance at least about p^2/(q+1), precisely (p - 1/order)^2 <= (q + 1)(chance + 2^-251). Whoever has the scalar signs any message. The two uses of SHA-512 in Ed25519 are random functions here, the curve is the actual one.", "quantifier": "all secret keys, all adaptive strategies, all payload and footer types, all messages, footers and assertions, all numbers of requests", "why_tests_cant": "it is about every strategy and about probabilities over all hash functions", "anchors": ["src/purpose/public/mod.rs: sign_with_assertions, verify_with_assertions", "src/purpose/public/v4.rs: sign, verify", "src/lib.rs: SecuredToken, Display, FromStr", "src/key/mod.rs: Key"]}
{"id": "C91", "title": "which bytes are public keys, and how many", "statement": "32 bytes are accepted as a V4 public key exactly if they stand for a point of the curve, everything else is InvalidKey; the same holds for its text. This is more than RFC 8032 allows: a coordinate may be given plus the field size (for coordinates below 19), and a zero may have a sign, so some points have two or four keys; each key stands for one point and keeps its bytes as given. The public key of a secret key is always the one encoding of RFC 8032. Sealing to keys of the same point, or of opposite points, gives the same result. Exactly 8 times the group order plus 26 of the 2^256 strings are accepted, a little less than half, so parsing hardly ever notices a damaged key; more than fifteen in sixteen of the accepted ones have no secret key at all. Of the 49-byte strings exactly 3(n-1)/2 are accepted as V3 public keys, n the order of P-384.", "quantifier": "all byte strings", "why_tests_cant": "an exact count over 2^256 and 2^392 strings, and a characterisation of all of them", "anchors": ["src/key/convert.rs: from_public_key, from_sec1_bytes", "src/key/convert.rs: public_key", "src/key/mod.rs: KeyType::from_bytes", "src/paserk/plaintext.rs: FromStr", "src/paserk/pke.rs: seal"]}
{"id": "C92", "title": "with random bytes, nothing that is drawn repeats", "statement": "If all random bytes are equally likely, then whoever has n operations done (tokens encrypted, keys wrapped with keys or with passwords, keys sealed, new local and secret keys made, both versions, in any order), choosing each from all answers so far, sees two equal values among everything that was drawn (nonces, pairs of salt and nonce, ephemeral public keys, new keys) with probability at most n(n-1)/2^251, for up to 2^64 operations at most 2^-123, from a random source of any size. The salts of password wraps alone repeat with probability at most n(n-1)/2^257 in version 3 and n(n-1)/2^129 in version 4. Two new local keys are equal with probability exactly 2^-256. Whoever asks only for what can be served is served any number of times from some random source.", "quantifier": "all numbers of operations, all sizes of the random source, all adaptive choices of operation, key, password, settings, recipient and message, counted over all random sources; the actual algorithms", "why_tests_cant": "it is a probability over all random sources, for every adaptive choice of operations", "anchors": ["src/key/convert.rs: new_random", "src/purpose/local/mod.rs: encrypt_with_assertions_and_rng", "src/paserk/wrap.rs: wrap_pie_with_rng", "src/paserk/pbkw.rs: pw_wrap_with_settings_and_rng", "src/paserk/pke.rs: seal_with_rng"]}
{"id": "C93", "title": "who does not know the keys cannot tell which key made a token", "statement": "Someone has any number n of messages encrypted and keys wrapped; every request names two keys in use and is chosen from the texts so far, and either always the first or always the second key is used. If random bytes are uniform and what the keys in use derive from nonces is uniform, then every conclusion from the texts is drawn in both cases with probabilities that differ by at most n(n-1)/2^257, for up to 2^64 requests by at most 2^-129. As long as no nonce is repeated there is no difference at all. So nobody can tell whether all tokens came from one key or each from its own. Nothing is assumed about cipher and MAC.", "quantifier": "all sets of keys, all numbers of requests, all adaptive choices of keys, messages, footers, assertions and keys to be wrapped, all conclusions; both versions; counted over all random bytes and all derivations", "why_tests_cant": "it compares two probabilities over all random bytes and all derivation functions, for every adaptive choice", "anchors": ["src/purpose/local/mod.rs: encrypt_with_assertions_and_rng", "src/purpose/local/v3.rs", "src/purpose/local/v4.rs", "src/paserk/wrap.rs: wrap_pie_with_rng"]}
{"id": "C94", "title": "with many keys in use, neither the message nor the key can be told from a token", "statement": "Someone has any number n of messages encrypted and keys wrapped under any of the keys in use; every request comes with two keys and two candidates of equal length for what is hidden, chosen from the texts so far, and either always the first candidate is used under the first key or always the second under the second key. If random bytes, what the keys in use derive from nonces, and the cipher are uniform, then every conclusion from the texts is drawn in both cases with probabilities that differ by at most n(n-1)/2^255, for up to 2^64 requests by at most 2^-127, however many keys are in use.", "quantifier": "all sets of keys, all numbers of requests, all lengths, all adaptive choices of keys, messages, footers, assertions and keys to be wrapped, all conclusions; both versions; counted over all random bytes, derivations and ciphers", "why_tests_cant": "it compares two probabilities over all random bytes, derivation functions and ciphers, for every adaptive choice", "anchors": ["src/purpose/local/mod.rs: encrypt_with_assertions_and_rng", "src/purpose/local/v3.rs", "src/purpose/local/v4.rs", "src/paserk/wrap.rs: wrap_pie_with_rng"]}
{"id": "C95", "title": "with many keys in use, nothing can be forged under any of them", "statement": "Someone has tokens encrypted and keys wrapped under any of the keys in use, choosing everything (even the random bytes) from the answers so far, may have the MAC computed under every MAC key that no key in use derives, and hands in q texts to be decrypted or unwrapped under keys of their choice. If the MAC is a random function, the share of functions for which a text is accepted under some key that was issued under none is at most q/2^384 (version 3) or q/2^256 (version 4). The number of keys plays no part. If the keys in use do not derive equal MAC keys from a nonce, the same bound holds for a text being accepted under a key although it was not issued under this one.", "quantifier": "all sets of keys, all numbers of requests and attempts, all adaptive choices; both versions; counted over all functions that could be the MAC on any large enough finite set of inputs", "why_tests_cant": "it bounds a share of all functions, for every adaptive choice and every set of keys", "anchors": ["src/purpose/local/mod.rs: encrypt_with_assertions_and_rng, decrypt_with_assertions", "src/purpose/local/v3.rs", "src/purpose/local/v4.rs", "src/paserk/wrap.rs: wrap_pie_with_rng, unwrap_key", "src/lib.rs: FromStr for SecuredToken"]}
{"id": "C96", "title": "with many keys in use, having texts opened does not help telling the message or the key of a token", "statement": "As C94, and in between up to q texts are handed in to be decrypted or unwrapped under any keys the asker names, with any footer type, message type and assertion; what comes out is told, except that texts issued in the game (for that assertion) are not opened. Counted over random bytes, what the keys in use derive from nonces, the cipher and the MAC that makes the tags, the chance of any conclusion from the answers differs between left (left candidates under the left keys) and right by at most n(n-1)/2^255 + 2q/2^(8t), t being the tag length (48 in V3, 32 in V4); for up to 2^64 texts and 2^64 openings by at most 2^-126. The number of keys plays no part. The game always runs to its end. The exception is needed: an issued wrapped key opens under the key that was used, to the candidate that was used.", "quantifier": "all sets of keys, all numbers of requests and openings, all lengths, all adaptive choices, all conclusions; both versions; counted over all random bytes, derivations, ciphers and MACs", "why_tests_cant": "it compares two probabilities over all random bytes and functions, for every adaptive choice", "anchors": ["src/purpose/local/mod.rs: encrypt_with_assertions_and_rng, decrypt_with_assertions", "src/purpose/local/v3.rs", "src/purpose/local/v4.rs", "src/paserk/wrap.rs: wrap_pie_with_rng, unwrap_key", "src/lib.rs: FromStr for SecuredToken"]}
{"id": "C97", "title": "who sees a sealed key cannot tell for whom it was sealed", "statement": "There are two recipients, and a key is sealed for one of them: one key for the first, or another (or the same) key for the second. Whoever knows both public keys, sees the text, computes the key derivation hash, the cipher and the MAC, and has other texts unsealed by either recipient, in at most n requests chosen from the answers so far, tells the two cases apart with advantage at most: the chances of hashing the secret shared with the first and with the second recipient, plus the chance of making another text with the same ephemeral key that carries a right tag or that a recipient accepts, plus n/2^256. These chances are those in one game whose text has nothing to do with recipients or keys. Whoever has nothing unsealed can be turned into an algorithm that computes the Diffie–Hellman secret of the ephemeral key and one of the two public keys, run without any secret key on a random text. Key derivation hash and cipher are random functions here. If the MAC is a random function too, the advantage is at most the two chances of hashing a shared secret plus (7n+4)/2^256, also for those who have texts unsealed. The two public keys may be any, also equal.", "quantifier": "all pairs of recipients, all pairs of keys, all sets of random tapes on which sealing succeeds, all adaptive strategies, all numbers of requests, all ways to guess, both versions", "why_tests_cant": "it is about every strategy and about probabilities over all hash functions, ciphers and MACs; that nothing about the recipient shows in the text cannot be seen from any number of texts", "anchors": ["src/paserk/pke.rs: seal_with_rng, unseal, Display, FromStr", "src/key/convert.rs: public_key"]}
{"id": "C98", "title": "of many sealed keys, nothing can be told about the keys or the recipients", "statement": "There are any number of recipients, and m keys are sealed, each with random bytes of its own; for each of the m sealings there are two cases, which say which key is sealed and for whom. Either all sealings are as in the first case or all as in the second. Whoever knows all public keys, sees all m texts, computes the key derivation hash, the cipher and the MAC, and has any other texts unsealed by any recipient, in at most n requests chosen from the answers so far, tells which it is with advantage at most the sum over the sealings of: the chances of hashing the secret shared with the recipient of the first and of the second case, plus the chance of making another text with the same ephemeral key that carries a right tag or that a recipient accepts; plus m(m+n)/2^256. The chances for the i-th sealing are those in a game whose i-th text has nothing to do with recipients or keys. Whoever has nothing unsealed can be turned into an algorithm that computes the Diffie–Hellman secret of an ephemeral key and a public key, run without any secret key and without the random bytes of that sealing. Key derivation hash and cipher are random functions here. If the MAC is a random function too, the advantage is at most the chances of hashing a shared secret plus m(7(m+n)+4)/2^256, also for those who have texts unsealed. This holds for all random bytes with which no ephemeral key is used twice, and with the actual algorithms one is used twice with probability at most m(m-1)/2^251, for any recipients.", "quantifier": "all numbers of sealings and of recipients, all keys and recipients in both cases, all sets of random tapes on which no ephemeral key repeats, all adaptive strategies, all numbers of requests, all ways to guess, both versions; the fraction of tapes with a repetition is over all tapes", "why_tests_cant": "it is about every strategy and about probabilities over all hash functions, ciphers and MACs, for any number of sealed keys", "anchors": ["src/paserk/pke.rs: seal_with_rng, unseal, Display, FromStr", "src/key/convert.rs: public_key"]}
{"id": "C99", "title": "being able to compute the cipher does not help telling the message or the key of a token", "statement": "There is a set of keys. In each of n requests two keys of the set are given, and two messages of equal length to be encrypted in a token (or two keys to be wrapped), one pair for the left and one for the right. Either always the left message is encrypted under the left key, or always the right one under the right key. In between, the cipher may be computed under any key, up to q times: each time everything about the cipher under that key is told. Requests are chosen from the answers so far. Whatever the requests and whatever is concluded from the answers, the chances of the conclusion in the two cases differ by at most n(n-1)/2^255 + nq/2^256. Nonces, what keys in use derive from nonces, and the cipher are random functions here. So knowing the cipher is no use but for trying cipher keys. The game always runs to its end. Up to 2^64 encryptions and 2^100 tried cipher keys the difference is at most 2^-91.", "quantifier": "all sets of keys, all adaptive strategies, all numbers of requests of both kinds, all message and footer types, encodings, implicit assertions, all conclusions, both versions", "why_tests_cant": "it is about every strategy and about probabilities over all random functions", "anchors": ["src/purpose/local/mod.rs: encrypt_with_assertions_and_rng", "src/purpose/local/v3.rs", "src/purpose/local/v4.rs", "src/paserk/wrap.rs: wrap_pie_with_rng"]}
{"id": "C100", "title": "trying cipher keys and MAC keys and having texts opened does not help telling the message or the key of a token, nor making one", "statement": "The games of C96 and C99 in one. In n requests one of two messages is encrypted under one of two keys (or one of two keys is wrapped); in up to o others a text is handed in to be decrypted or unwrapped under a key in use, and what comes out is told unless the text was issued in the game; in up to q others everything about the cipher under a key is told; in up to m others the tag of any message under any MAC key is told. Requests are chosen from the answers so far. Whatever the requests and whatever is concluded, the chances of the conclusion in the two cases (always left or always right) differ by at most 3n(n-1)/2^256 + nq/2^256 + 2o/2^(8t) + 2(n+o)m/2^256, t being the tag length (48 in V3, 32 in V4). And the chance that any text opens that was not issued is at most n(n-1)/2^257 + o/2^(8t) + (n+o)m/2^256. Random bytes, what keys in use derive from nonces, the cipher and the MAC are random functions. So knowing cipher and MAC is no use but for trying keys, and that keys for wrapped keys are cut to 32 bytes does not matter. For up to 2^64 texts and 2^64 openings, 2^100 cipher keys and 2^100 MAC keys tried, the difference is at most 2^-89. With enough requests of each kind allowed the game always runs to its end.", "quantifier": "all sets of keys, all adaptive strategies, all numbers of requests of the four kinds, all message and footer types, encodings, implicit assertions, all conclusions, both versions", "why_tests_cant": "it is about every strategy and about probabilities over all random functions", "anchors": ["src/purpose/local/mod.rs: encrypt_with_assertions_and_rng, decrypt_with_assertions", "src/purpose/local/v3.rs", "src/purpose/local/v4.rs", "src/paserk/wrap.rs: wrap_pie_with_rng, unwrap_key"]}
{"id": "C101", "title": "where everything can be computed, only trying the keys helps", "statement": "As in C100, but nothing is secret any more but the keys: r keys are drawn at random, requests name them by number, and in up to u further requests everything that any key derives from nonces is told. So someone can carry out every step of encryption, decryption, wrapping and unwrapping under keys of their own choice. Whatever the requests and whatever is concluded from the answers, the chances of the conclusion in the two cases (always the left candidate under the left key or always the right one under the right key) differ by at most the bound of C100 plus 2ru/2^256 + r(r-1)/2^256. The chance that a key in use is among the keys tried is at most ru/2^256 + r(r-1)/2^257, for any requests. The chance that any text opens that was not issued is at most the bound of C100 plus ru/2^256 + r(r-1)/2^257. Keys, random bytes, what keys derive, the cipher and the MAC are random. For up to 2^64 keys in use, 2^64 texts and 2^64 openings, and 2^100 keys, cipher keys and MAC keys tried, the difference is at most 2^-89. With enough requests of each kind allowed the game always runs to its end.", "quantifier": "all numbers of keys, all adaptive strategies, all numbers of requests of the five kinds, all message and footer types, encodings, implicit assertions, all conclusions, both versions", "why_tests_cant": "it is about every strategy and about probabilities over all keys and random functions", "anchors": ["src/purpose/local/mod.rs: encrypt_with_assertions_and_rng, decrypt_with_assertions", "src/purpose/local/v3.rs", "src/purpose/local/v4.rs", "src/paserk/wrap.rs: wrap_pie_with_rng, unwrap_key"]}
{"id": "C102", "title": "a sealed key can be used: seeing its sealed form does not help", "statement": "As in C101, but before the requests one of the r keys in use has been sealed for a public key and the text of the sealed key is known, as when a key is sent to its recipient and then used; requests may also ask for the key derivation hash of sealing, and for what the recipient gets from any other text. Whatever the requests and whatever is concluded from text and answers, the chances of the conclusion in the two cases differ by at most the bound of C101 (with one more MAC request), plus 2k/2^256 for k requests, plus four times the number of MAC and unseal requests over the number of tags (for making another text with the same ephemeral key and a right tag), plus the two chances that someone who is shown an unrelated text instead hashes the shared Diffie-Hellman secret. Where nothing is unsealed, each of these is at most the sum, over the at most q inputs hashed, of the chances that the shared secret can be read off that input: it would be computed from the two public keys alone. Where texts are unsealed, the same holds with the help of a recipient who is asked only about texts with other ephemeral keys. The chance that a key in use, the sealed one for example, is among the keys tried, and the chance that any text opens that was not issued, are bounded in the same way. For up to 2^64 keys in use, texts and openings, 2^100 keys, cipher keys, MAC keys and hashes tried or texts unsealed, and 2^128 requests in all, the difference is at most 2^-88 but for those chances. With enough requests of each kind allowed the game always runs to its end, and the recipient gets from a text exactly the key that was sealed.", "quantifier": "all key pairs, all sets of random bytes with which sealing succeeds, all numbers of keys, all adaptive strategies, all numbers of requests of the seven kinds, all message and footer types, all conclusions, both versions", "why_tests_cant": "it is about every strategy and about probabilities over all keys, random bytes and random functions", "anchors": ["src/paserk/pke.rs: seal_with_rng, unseal, Display, FromStr", "src/key/convert.rs: public_key", "src/purpose/local/mod.rs: encrypt_with_assertions_and_rng, decrypt_with_assertions", "src/paserk/wrap.rs: wrap_pie_with_rng, unwrap_key"]}
{"id": "C103", "title": "a key stored under a password can be used: seeing its wrapped form does not help", "statement": "As in C101, but before the requests one of the r keys in use has been wrapped with a password drawn from a set W, and the text of the wrapped key is known, as when a key is stored under a password and then used; requests may also run the password hash, and the hash that derives keys from its value. Whatever the requests and whatever is concluded from text and answers, the chances of the conclusion in the two cases differ by at most the bound of C101 (with one more MAC request), plus 2w/|W| for w runs of the password hash (the chance of guessing the password), plus 2(q+k)/2^256 for k requests of which q are about the cipher or a hash. The chance that a key in use, the wrapped one for example, is among the keys tried is at most w/|W| + (q+k)/2^256 plus the bound of C101, and so is the chance that any text opens that was not issued. For up to 2^64 keys in use, texts and openings, 2^100 keys, cipher keys, MAC keys and hashes tried, and 2^128 requests in all, the difference is at most 2w/|W| + 2^-88. With enough requests of each kind allowed the game always runs to its end, and whoever has the password gets from the text exactly the key that was wrapped.", "quantifier": "all finite nonempty sets of passwords shorter than 2^32 bytes, all valid settings, salts and nonces, all numbers of keys, all adaptive strategies, all numbers of requests of the seven kinds, all message and footer types, all conclusions, both versions", "why_tests_cant": "it is about every strategy and about probabilities over all keys, passwords and random functions", "anchors": ["src/paserk/pbkw.rs: pw_wrap_with_settings_and_rng, unwrap_key, Display, FromStr", "src/purpose/local/mod.rs: encrypt_with_assertions_and_rng, decrypt_with_assertions", "src/paserk/wrap.rs: wrap_pie_with_rng, unwrap_key"]}
{"id": "C104", "title": "texts may contain the keys in use, even in cycles", "statement": "As in C101, but what is to be hidden may be any function of all keys in use: a key in use is wrapped under another one or under itself, two keys are wrapped under each other, a token carries a key or something computed from keys. Candidates must be encodable with equal lengths whatever the keys are. Whatever the requests and whatever is concluded from the answers, the chances of the conclusion in the two cases differ by at most 6n(n-1)/2^256 + 2nq/2^256 + 4o/2^(8 tagLen) + 4(n+o)m/2^256 + 2ru/2^256 + r(r-1)/2^256, for r keys, n texts, o openings and u, q, m requests about what keys derive, the cipher and the MAC. The chance that a key in use is among the keys tried is at most half that, and the chance that any text opens that was not issued is at most 4n(n-1)/2^256 + nq/2^256 + 3o/2^(8 tagLen) + 3(n+o)m/2^256 + ru/2^256 + r(r-1)/2^257. For up to 2^64 keys in use, 2^64 texts and 2^64 openings, and 2^100 keys, cipher keys and MAC keys tried, the difference is at most 2^-88. With enough requests of each kind allowed the game always runs to its end.", "quantifier": "all numbers of keys, all functions of the keys as candidates, all adaptive strategies, all numbers of requests of the five kinds, all message and footer types, encodings, implicit assertions, all conclusions, both versions", "why_tests_cant": "it is about every strategy, every way in which texts may depend on keys, and about probabilities over all keys and random functions", "anchors": ["src/paserk/wrap.rs: wrap_pie_with_rng, unwrap_key", "src/purpose/local/mod.rs: encrypt_with_assertions_and_rng, decrypt_with_assertions", "src/purpose/local/v3.rs", "src/purpose/local/v4.rs"]}
{"id": "C105", "title": "the ids of the keys in use may be known", "statement": "As in C104, but at the start the ids of all keys in use are told, exactly as they are made from the keys and displayed, and every request may be chosen from them: the id of a key may stand in the footer of each token made with it. Requests for the hash that makes the ids, a random one, are added. Whatever the requests and whatever is concluded from the ids and the answers, the chances of the conclusion in the two cases differ by at most 6n(n-1)/2^256 + 2nq/2^256 + 4o/2^(8 tagLen) + 4(n+o)m/2^256 + 2ru/2^256 + 2r(r-1)/2^256, where u bounds the keys tried and the ids made from guessed keys together. The chance that a key in use is tried or its id made from it is at most half that, and the chance that any text opens that was not issued is at most 4n(n-1)/2^256 + nq/2^256 + 3o/2^(8 tagLen) + 3(n+o)m/2^256 + ru/2^256 + r(r-1)/2^256. For up to 2^64 keys in use, 2^64 texts and 2^64 openings, 2^100 keys and ids tried, and 2^100 cipher keys and MAC keys, the difference is at most 2^-88. With enough requests of each kind allowed the game always runs to its end.", "quantifier": "all numbers of keys, all functions of the keys as candidates, all adaptive strategies that know the ids, all numbers of requests of the six kinds, all message and footer types, encodings, implicit assertions, all conclusions, both versions", "why_tests_cant": "it is about every strategy and every conclusion, and about probabilities over all keys and random functions", "anchors": ["src/paserk/id.rs: to_id, From<&Key> for KeyId, Display", "src/purpose/local/mod.rs: encrypt_with_assertions_and_rng, decrypt_with_assertions", "src/paserk/wrap.rs: wrap_pie_with_rng, unwrap_key"]}
{"id": "C106", "title": "from the generation of the keys on", "statement": "As in C105, but nothing is drawn besides the bytes of one random source (and what is idealised): r local keys are generated from it one after the other with new_random, their ids are made with to_id and printed, and all texts are made with what is left of the same source. The chances of any conclusion from the ids and the answers in the two cases differ by at most the bound of C105; a generated key is tried, or its id made from it, and a text opens that was not issued, at most as often as there. For up to 2^64 keys, texts and openings and 2^100 keys and ids, cipher keys and MAC keys tried, the difference is at most 2^-88. All keys are always generated, from the first 32r bytes, and with enough requests of each kind allowed the game always runs to its end.", "quantifier": "all numbers of keys, all functions of the keys as candidates, all adaptive strategies that know the ids, all numbers of requests of the six kinds, all message and footer types, encodings, implicit assertions, all conclusions, both versions", "why_tests_cant": "it is about every strategy and every conclusion, and about probabilities over all random sources and random functions", "anchors": ["src/key/convert.rs: new_random, new_os_random", "src/paserk/id.rs: to_id, From<&Key> for KeyId, Display", "src/purpose/local/mod.rs: encrypt_with_assertions_and_rng, decrypt_with_assertions", "src/paserk/wrap.rs: wrap_pie_with_rng, unwrap_key"]}
{"id": "C107", "title": "a secret in texts cannot be guessed", "statement": "As in C106, but there are no two cases: a secret is drawn evenly from some finite set, say all 32-byte keys, and stands in the texts asked for. Each token's message and each wrapped key can be any function of the secret and the keys in use, as long as its length does not depend on them and each wrapped key is a valid one. Whatever is concluded about the secret from the ids and all answers, the chance that it holds differs by at most the bound of C105 from the chance that it holds when the same conclusion is drawn from texts made with a fixed other value instead. So t guesses find the secret with a chance of at most t in the number of secrets plus that bound: for a 32-byte key, with up to 2^64 keys, texts and openings and 2^100 attempts of each kind, including the guesses, at most 2^-87. If the secret is not drawn evenly, so that its likeliest value has a chance of p, one guess is right with a chance of at most p plus that bound; the same holds for a guess of any part of it. With enough requests of each kind allowed the game always runs to its end.", "quantifier": "all finite sets of secrets, all functions of secret and keys as contents, all numbers of keys, all adaptive strategies that know the ids, all numbers of requests of the six kinds, all message and footer types, encodings, implicit assertions, all relations between what is seen and the secret, both versions", "why_tests_cant": "it is about every strategy and every conclusion, and about probabilities over all secrets, random sources and random functions", "anchors": ["src/key/convert.rs: new_random, new_os_random", "src/paserk/id.rs: to_id, From<&Key> for KeyId, Display", "src/purpose/local/mod.rs: encrypt_with_assertions_and_rng, decrypt_with_assertions", "src/paserk/wrap.rs: wrap_pie_with_rng, unwrap_key"]}
{"id": "C108", "title": "a secret sealed for many recipients cannot be guessed", "statement": "As in C98, but there are no two cases: a secret is drawn evenly from some finite set, say all 32-byte keys, and m keys, each any function of the secret, are sealed for given recipients; one key is sealed for everyone, for example. Whatever is concluded about the secret from the m texts and the answers to at most n requests, the chance that it holds differs from the chance that it holds when concluded from sealed keys made from a fixed other value by at most twice the chances, summed over the sealings, that the Diffie-Hellman secret shared with the recipient is computed from the two public keys alone, plus m(m+n)/2^256. So t guesses find the secret with a chance of at most t in the number of secrets plus that. For those who also have any other texts unsealed by any recipient, the same holds with the chances that they hash the shared secret and m(7(m+n)+4)/2^256, if the MAC is a random function. All sealings succeed, and each recipient gets from the text the key that was sealed for them. If the secret is not drawn evenly, or only something about it is guessed, and no value of it is more likely than p, the chance of a right guess is bounded in the same way, with p in place of the number of guesses in the number of secrets.", "quantifier": "all finite sets of secrets, all functions of the secret as sealed keys, all numbers of sealings and of recipients, all sets of random tapes on which no ephemeral key repeats, all adaptive strategies, all numbers of requests and guesses, all relations between what is seen and the secret, both versions", "why_tests_cant": "it is about every strategy and every conclusion, and about probabilities over all secrets, random bytes and random functions", "anchors": ["src/paserk/pke.rs: seal_with_rng, unseal, Display, FromStr", "src/key/convert.rs: public_key"]}
{"id": "C109", "title": "a key wrapped with a password is found only by guessing the password", "statement": "As in C89 with a random MAC, but there is only one key: it is any function of a secret that is drawn evenly from some finite set, and it is wrapped with a password drawn from a set of W passwords. Whatever is concluded about the secret from the text and the answers to at most n requests, of which at most q run the password hash, the chance that it holds differs by at most q/W + 4n/2^256 from the chance that it holds when concluded from a wrapped key made from a fixed other value. So t guesses find the secret with a chance of at most t in the number of secrets plus q/W + 4n/2^256: a random key is as safe as the password, whatever its own length. Wrapping succeeds with every password, and whoever has the password gets the key from the text.", "quantifier": "all finite sets of secrets, all functions of the secret as keys (local and secret), all sets of passwords, all settings, salts and nonces, all adaptive strategies, all numbers of requests and guesses, all relations between what is seen and the secret, both versions", "why_tests_cant": "it is about every strategy and every conclusion, and about probabilities over all secrets, passwords and random functions", "anchors": ["src/paserk/pbkw.rs: pw_wrap_with_settings, unwrap_key, Display, FromStr, PwVersion::kdf, split_ek", "src/key/mod.rs: Key"]}
{"id": "C110", "title": "passwords that are not drawn evenly protect a wrapped key as well as they are hard to guess", "statement": "As in C89 with a random MAC and in C109, but people may take some passwords more often than others: the password is any function of something drawn evenly from a finite set of draws. If at most B of the draws lead to one of q passwords, whichever q passwords these are, then whoever sees the wrapped key, runs the password hash at most q times and makes at most n requests in all tells two keys apart with advantage at most B/draws + 4n/2^256, and finds a secret that the key is made from with t guesses with a chance of at most t in the number of secrets plus B/draws + 4n/2^256. So a wrapped key is as safe as the best q guesses at the password are bad. If no password comes from more than c draws, B = q*c will do; if all passwords are equally likely, B = q. If the secret is not drawn evenly either, or only something about it is guessed, and no value of it is more likely than p, one guess is right with a chance of at most p + B/draws + 4n/2^256.", "quantifier": "all ways to draw passwords, all sets of passwords, all pairs of keys and all secrets, all settings, salts and nonces, all adaptive strategies, all numbers of requests and guesses, both versions", "why_tests_cant": "it is about every strategy and every distribution of passwords, and about probabilities over all random functions", "anchors": ["src/paserk/pbkw.rs: pw_wrap_with_settings, unwrap_key, Display, FromStr, PwVersion::kdf, split_ek", "src/key/mod.rs: Key"]}
