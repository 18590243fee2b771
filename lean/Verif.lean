import Verif.Curve.Card25519
import Verif.Curve.Card384
import Verif.Curve.Count25519
import Verif.Curve.Count384
import Verif.Curve.Decode25519
import Verif.Curve.Edwards
import Verif.Curve.Encode384
import Verif.Curve.Field25519
import Verif.Curve.Field384
import Verif.Curve.Ladder25519
import Verif.Curve.Laws
import Verif.Curve.Laws25519
import Verif.Curve.Laws384
import Verif.Curve.Loop
import Verif.Curve.Low25519
import Verif.Curve.Mont25519
import Verif.Curve.NoRoot384
import Verif.Curve.Order25519
import Verif.Curve.Pocklington
import Verif.Curve.Points25519
import Verif.Curve.Points384
import Verif.Curve.Primes
import Verif.Curve.Sample384
import Verif.Curve.Sec1
import Verif.Curve.Sign25519
import Verif.Curve.Two384
import Verif.Lemmas.Anonymity
import Verif.Lemmas.Base64
import Verif.Lemmas.Basic
import Verif.Lemmas.Computing
import Verif.Lemmas.Ctr
import Verif.Lemmas.Distinguish
import Verif.Lemmas.Fmt
import Verif.Lemmas.Fork
import Verif.Lemmas.Fresh
import Verif.Lemmas.Hybrid
import Verif.Lemmas.HybridGame
import Verif.Lemmas.HybridTags
import Verif.Lemmas.JsonGrammar
import Verif.Lemmas.JsonRecord
import Verif.Lemmas.JsonText
import Verif.Lemmas.Key
import Verif.Lemmas.Knowing
import Verif.Lemmas.Leakage
import Verif.Lemmas.Local
import Verif.Lemmas.OneCipher
import Verif.Lemmas.Pae
import Verif.Lemmas.Paserk
import Verif.Lemmas.Pbkw
import Verif.Lemmas.Pem
import Verif.Lemmas.Pke
import Verif.Lemmas.Plug
import Verif.Lemmas.Public
import Verif.Lemmas.PwInUse
import Verif.Lemmas.RandomTags
import Verif.Lemmas.Rng
import Verif.Lemmas.Secrecy
import Verif.Lemmas.Signing
import Verif.Lemmas.SigningSim
import Verif.Lemmas.Token
import Verif.Lemmas.Trees
import Verif.Lemmas.Trying
import Verif.Lemmas.Veiling
import Verif.Lemmas.Wrap
import Verif.Model.Base64
import Verif.Model.Basic
import Verif.Model.Cache
import Verif.Model.Fmt
import Verif.Model.Fuzz
import Verif.Model.JsonRecord
import Verif.Model.JsonText
import Verif.Model.Key
import Verif.Model.Leakage
import Verif.Model.LeakageHide
import Verif.Model.Limits
import Verif.Model.Local
import Verif.Model.Pae
import Verif.Model.Paserk
import Verif.Model.Pbkw
import Verif.Model.Pem
import Verif.Model.Pke
import Verif.Model.Prims
import Verif.Model.Public
import Verif.Model.Rng
import Verif.Model.Serde
import Verif.Model.Token
import Verif.Model.Wrap
import Verif.Props.Actual
import Verif.Props.Anonymity
import Verif.Props.Auth
import Verif.Props.Birthday
import Verif.Props.Chosen
import Verif.Props.Claims
import Verif.Props.Colliding
import Verif.Props.Commit
import Verif.Props.Compose
import Verif.Props.Computing
import Verif.Props.Distinguish
import Verif.Props.Domain
import Verif.Props.EdKeys
import Verif.Props.Encoding
import Verif.Props.Fmt
import Verif.Props.Forging
import Verif.Props.ForgingMany
import Verif.Props.Fresh
import Verif.Props.Grammar
import Verif.Props.Guessing
import Verif.Props.Harness
import Verif.Props.History
import Verif.Props.Hybrid
import Verif.Props.IdsKnown
import Verif.Props.KeyDependent
import Verif.Props.KeyFiles
import Verif.Props.KeyIds
import Verif.Props.Keys
import Verif.Props.Knowing
import Verif.Props.Leakage
import Verif.Props.LeakageHide
import Verif.Props.Lifecycle
import Verif.Props.Limits
import Verif.Props.LowOrder
import Verif.Props.Mixed
import Verif.Props.Nonces
import Verif.Props.OneMessage
import Verif.Props.Parsers
import Verif.Props.Passwords
import Verif.Props.Pbkdf2
import Verif.Props.Pbkw
import Verif.Props.Pie
import Verif.Props.Pke
import Verif.Props.Probing
import Verif.Props.ProbingMany
import Verif.Props.PwHiding
import Verif.Props.PwInUse
import Verif.Props.PwSecret
import Verif.Props.PwUneven
import Verif.Props.Recipients
import Verif.Props.Rng
import Verif.Props.Samples
import Verif.Props.SealedSecret
import Verif.Props.Sealing
import Verif.Props.SealingMany
import Verif.Props.SealingTapes
import Verif.Props.Seals
import Verif.Props.Secrecy
import Verif.Props.SecretContent
import Verif.Props.Seeking
import Verif.Props.Separation
import Verif.Props.Service
import Verif.Props.SigForging
import Verif.Props.Sizes
import Verif.Props.TokenRoundtrip
import Verif.Props.TokenSpec
import Verif.Props.TokenText
import Verif.Props.Trying
import Verif.Props.Veiling
import Verif.Props.Work
import Verif.Real.Aes
import Verif.Real.AesPerm
import Verif.Real.Argon2
import Verif.Real.Blake2b
import Verif.Real.ChaCha
import Verif.Real.Ed25519
import Verif.Real.P384
import Verif.Real.Prims
import Verif.Real.Sha2
import Verif.Spec.Anonymity
import Verif.Spec.Base64
import Verif.Spec.Birthday
import Verif.Spec.Chosen
import Verif.Spec.Colliding
import Verif.Spec.Computing
import Verif.Spec.Distinguish
import Verif.Spec.EdKeys
import Verif.Spec.Fmt
import Verif.Spec.Forging
import Verif.Spec.ForgingMany
import Verif.Spec.Fresh
import Verif.Spec.Hybrid
import Verif.Spec.IdsKnown
import Verif.Spec.Json
import Verif.Spec.KeyDependent
import Verif.Spec.Knowing
import Verif.Spec.Lifecycle
import Verif.Spec.Pae
import Verif.Spec.Paserk
import Verif.Spec.Paseto
import Verif.Spec.Pem
import Verif.Spec.Probing
import Verif.Spec.ProbingMany
import Verif.Spec.PwHiding
import Verif.Spec.PwInUse
import Verif.Spec.Recipients
import Verif.Spec.Rng
import Verif.Spec.Seal
import Verif.Spec.SealedSecret
import Verif.Spec.Sealing
import Verif.Spec.SealingMany
import Verif.Spec.Secrecy
import Verif.Spec.SecretContent
import Verif.Spec.Seeking
import Verif.Spec.Signing
import Verif.Spec.Trying
import Verif.Spec.Veiling
import Verif.Toy
import Verif.Vectors.Documented
import Verif.Vectors.Paserk
import Verif.Vectors.Run
import Verif.Vectors.Slow
import Verif.Vectors.Tokens
