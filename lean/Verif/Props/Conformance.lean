import Verif.Model.TomlText
import Verif.Model.YamlLayout
import Verif.Model.AesGcm
import Verif.Model.Sha512
import Verif.Lemmas.Floats
import Verif.Spec.ToyDoc
/-!
# The model against files made by SOPS

The files of crates/lib/tests/sops_references, which crates/lib/tests/parity_checks.rs decrypts and encrypts again with
the parameters saved, are decrypted and encrypted again by the model, to the same texts. The data keys are what `age`
decrypts with the private key of the tests (integration/age.rs:181). These are tests of the model, not proofs about it.
-/

namespace Rops.Conformance

/-- The private key of the tests and its public key. -/
def age : AgeOps where
  Identity := Unit
  parseIdentity s := if s = c!"AGE-SECRET-KEY-1EQUCGFZH8UZKSZ0Z5N5T234YRNDT4U9H7QNYXWRRNJYDDVXE6FWSCPGNJ7" then some () else none
  parseRecipient s := some s
  toPublic _ := c!"age1se5ghfycr4n8kcwc3qwf234ymvmr2lex2a99wh8gpfx97glwt9hqch4569"
  wrap _ _ _ := .error .panic
  unwrap _ _ := .error .panic

/-- The world of the tests, given the one answer of `age`. -/
def env (text : Str) (key : Bytes) : Env where
  A := { age with unwrap := fun _ s => if s = text then .ok key else .error .panic }
  K := Toy.kms
  host := Toy.host (.value c!"AGE-SECRET-KEY-1EQUCGFZH8UZKSZ0Z5N5T234YRNDT4U9H7QNYXWRRNJYDDVXE6FWSCPGNJ7") .notPresent
  newKey _ := List.replicate 32 0
  clock _ := ⟨2024, 1, 1, 0, 0, 0, 0⟩
  C := aesGcm
  H := sha512
  fl := f64Floats
  rx r k := match r with
    | '^' :: r => r.isPrefixOf k
    | _ => false
  nonce _ := List.replicate 32 0

/-- A file of SOPS: its text, the plaintext, and the data key. -/
structure Reference where
  text : Str
  plain : Str
  dataKey : Bytes

/-- The text that is encrypted by `age`. -/
def Reference.wrapped (r : Reference) : Str :=
  match ((blockLayout.ops.parse r.text).bind Yaml.firstSops).bind fun d => (Metadata.ofDoc (M := Unit) { Toy.docOps with A := age } (fun _ => some ()) d) with
  | some md => match md.integration.age with
    | [u] => u.enc
    | _ => []
  | none => []

/-- What parity_checks.rs:61-79 asserts. -/
def Reference.holds (r : Reference) : Bool :=
  let E := env r.wrapped r.dataKey
  match EncFile.ofText blockLayout.ops { Toy.docOps with A := age } aesGcm r.text with
  | none => false
  | some f => f.toText blockLayout.ops aesGcm == r.text && match f.decryptAndSave DocFormat.yaml.F E with
    | .error _ => false
    | .ok (g, p) => blockLayout.ops.render g.map == r.plain &&
      match g.encryptSaved DocFormat.yaml.F E p 0 with
      | .error _ => false
      | .ok (f', i) => i == 0 && f'.toText blockLayout.ops aesGcm == r.text

/-- `age_example.yaml`, the plaintext of it, and the data key. -/
def sopsExample : Reference where
  text := c!"hello: ENC[AES256_GCM,data:8qKuCV7HkZSpWQj8YrpeC1bi28WkOcA/De3O6ITe7tFKqj1h1QXN+qTm+hQOqA==,iv:YIKmKtTqVwenr0pZwIBMeIkLhdIUYjylqsYesHY20T4=,tag:F7JDsbStittMNkW67nxxVw==,type:str]\nexample_key: ENC[AES256_GCM,data:dlBJhoPbBr+/7DUcDA==,iv:NHLG+AGcXdkoUHqG1bnOr6jy+rCu9Dwnqgm78+69W4M=,tag:D8V48sWQNsvJ39n/Dqhxtg==,type:str]\nexample_array:\n- ENC[AES256_GCM,data:SpMMITB9xz3BV9IikVs=,iv:6i59WuNz7HXvKkOEsUvTOAMpUDWt+Yr/7VLZiZpuUQY=,tag:WW75SSkKbnzU+j97OeqtUg==,type:str]\n- ENC[AES256_GCM,data:X3v+SseqhnHVUj/coFA=,iv:cH10NnQpN43bsK88B7216JW2ksGzSUdUZBVf6WrG5ZE=,tag:IhIWznMk05PROaR9wBzazw==,type:str]\nexample_number: ENC[AES256_GCM,data:jJDmeUep5pLyrA==,iv:GShxk0uB8mIIJFyRbMAfvhmvD459q3l5HVLmho+6dPs=,tag:U5pKd0A5xAbGhQjxkJJXKw==,type:float]\nexample_booleans:\n- ENC[AES256_GCM,data:fY3cXA==,iv:WD5F3zC+JSGMrYuDv0mwxIJ5/8IuAr1pTn3Hw3xcNBk=,tag:8sXFUDmSoRi+Hrlo5HxM6g==,type:bool]\n- ENC[AES256_GCM,data:QN1RgWA=,iv:Pxpghl71bAX3ZE/gxkCDWSUCf8/KGS9uncoQ598haIM=,tag:Gk++6TuD+eN/m0b8qkiW6Q==,type:bool]\nsops:\n  age:\n  - recipient: age1se5ghfycr4n8kcwc3qwf234ymvmr2lex2a99wh8gpfx97glwt9hqch4569\n    enc: |\n      -----BEGIN AGE ENCRYPTED FILE-----\n      YWdlLWVuY3J5cHRpb24ub3JnL3YxCi0+IFgyNTUxOSBLRldWU0RNM3NQOVBFOFdi\n      a0JBd2hRa2dTa1Nuc2NLNjVsNHc4YWJJK3k0ClJPRktvZS91UmtyK3NTV2tycWxO\n      Wm4zWURqT3RVYXRTb0FHb1p4UGRrYmcKLS0tIDNFK3ZjUTZVclBaTlhFNSs5TEQ1\n      elJ6QmRiMmFzY0dETWRzWFcxck9yTzQKlEuRma1842fqnnveiDqLwjhMXuiICQ/T\n      Ededl+gNtC1YBaNBMzEgQnmYvBRiTG/dZToIFHE4Dsru5+yQvh/s4g==\n      -----END AGE ENCRYPTED FILE-----\n  lastmodified: 2023-12-25T10:31:01Z\n  mac: ENC[AES256_GCM,data:71P4QU1+TCVHWmuOUIKP8ZTFkEo1fxJU/N5b7pxM8iKZ5U46vi+cOeDas9HBTfq9QLRnTVWs9M0WLfcksqnq/fTo2111/kDIBsi97G/BtBcS615s6AeEOcukn52F7yuFT+jAY5P5Jbio1dxtfBevbBKnhleXXkCo7z9Dub7k/R8=,iv:Q/SVo4J3ZVlqXAZC+BticPJhXJZTK4DHHuMh8kl82Z4=,tag:fCyM4KEwGG+tWqqw/uqD0Q==,type:str]\n"
  plain := c!"hello: Welcome to SOPS! Edit this file as you please!\nexample_key: example_value\nexample_array:\n- example_value1\n- example_value2\nexample_number: 1234.56789\nexample_booleans:\n- true\n- false\n"
  dataKey := [54, 147, 132, 4, 10, 22, 97, 128, 89, 43, 144, 195, 241, 222, 190, 38, 199, 198, 124, 192, 155, 194, 29, 18, 133, 253, 15, 35, 80, 222, 157, 243]

example : sopsExample.holds = true := by decide +kernel

/-- `age_encrypted_suffix.yaml`, the plaintext of it, and the data key. -/
def sopsEncryptedSuffix : Reference where
  text := c!"a:\n  1_encrypted:\n    a: ENC[AES256_GCM,data:0FsM,iv:h1XsxkX+o1NT+D+XcFAODO43wuR8zysdDydI54dAuXo=,tag:EJ9xXVt7sKJUf/FLsiKP6g==,type:str]\n    b: ENC[AES256_GCM,data:skTW,iv:bfM7BYJ6+mOnDd7kewCVqU2WW4jVPIRzRMwp2ojVPXw=,tag:mec4u6KOmvQroYJv/hqmeQ==,type:str]\n  2_plain: aaa\n  3_nested_encrypted:\n    a:\n      i: ENC[AES256_GCM,data:gvZ5,iv:ARytT7LCYwrDBqdZ/SK4HCtnEmJo3JsATZuy2qcS7mE=,tag:+ekGmUFf9kdQhybUgou+Pg==,type:str]\n    b:\n      ii: ENC[AES256_GCM,data:ReUV,iv:YRASuxlwcayBPxQehJGzMSoKhFP+qL4Db/QqUNy76q4=,tag:2DRbJrykx/Q3L/FnAofLZA==,type:str]\nb_encrypted: ENC[AES256_GCM,data:MGQA,iv:MAMbnmDae/S6I/4HaN5A1xM2pPoUNFbCgr0UrOEnqFc=,tag:dGZBtt5npy+ig2DBbPC6Ug==,type:str]\nsops:\n  age:\n  - recipient: age1se5ghfycr4n8kcwc3qwf234ymvmr2lex2a99wh8gpfx97glwt9hqch4569\n    enc: |\n      -----BEGIN AGE ENCRYPTED FILE-----\n      YWdlLWVuY3J5cHRpb24ub3JnL3YxCi0+IFgyNTUxOSBXeElkSjNTMkduU2Ztcm0r\n      RzVxK256c2ZQMWFLZ0lSTkVNT1J0T21sajJRCmZkWnFnVFNUQjlwcEpGeUhjdWIz\n      OHB4THE5eGxWV1hCanpYanptMzZxTUUKLS0tIDdUNCtzejR0ZmNUVjZab0tSTHMr\n      d29zcGlGNW5NelZFdWxCUjh1QVhvc2MKGnIPvwO1J8JvUOfDJodOC8AcAXEs8FqO\n      cO+3ma+lL6B+Is3LOUDVM9WR6zTuOe95fqUlrDiWQJZrCQ4+WD0E4w==\n      -----END AGE ENCRYPTED FILE-----\n  lastmodified: 2023-12-26T20:11:30Z\n  mac: ENC[AES256_GCM,data:lq5WAFq4ZPA8bYsdk/jM6fCrdmZce6tqtNmAgrU0mX+UkyKLV9QIpUPAg1e7AImgbTQMs/shmVuRYeFmHc+qhZ/pzoxFfRjcyargSwPM9EcvPVpgwAPylhezAwzLR5wteBxEjCZNRjFBnv0/qFrTW6uVoVWf96l3sMtgn9fbOog=,iv:6JhEg0HATLynl8P+dv0+kDY3x2tDdvmp/ZN7L63IX3I=,tag:9p9nbAYFauIpit4N9PapNw==,type:str]\n  encrypted_suffix: encrypted\n"
  plain := c!"a:\n  1_encrypted:\n    a: xxx\n    b: xxx\n  2_plain: aaa\n  3_nested_encrypted:\n    a:\n      i: xxx\n    b:\n      ii: xxx\nb_encrypted: xxx\n"
  dataKey := [63, 8, 245, 122, 174, 158, 129, 139, 22, 8, 50, 76, 205, 165, 50, 175, 201, 39, 221, 32, 35, 67, 109, 193, 182, 57, 128, 137, 44, 116, 179, 163]

example : sopsEncryptedSuffix.holds = true := by decide +kernel

/-- `age_encrypted_regex.yaml`, the plaintext of it, and the data key. -/
def sopsEncryptedRegex : Reference where
  text := c!"a:\n  encrypted_1:\n    a: ENC[AES256_GCM,data:63NN,iv:tMGNl1clK1rQt7oy2huw+YJ+361iSpV2F4zT07ZPZAk=,tag:MPkuD6FNDqlr+2nuu/b61g==,type:str]\n    b: ENC[AES256_GCM,data:1CSH,iv:FbmtCB0SV5d5m1Q1Rr1RG5bSP1kBtlD5ggQUkAbrYOM=,tag:5N/qZ2dX4+RiJo6jmpuQyw==,type:str]\n  not_encrypted: aaa\nb: aaa\nsops:\n  age:\n  - recipient: age1se5ghfycr4n8kcwc3qwf234ymvmr2lex2a99wh8gpfx97glwt9hqch4569\n    enc: |\n      -----BEGIN AGE ENCRYPTED FILE-----\n      YWdlLWVuY3J5cHRpb24ub3JnL3YxCi0+IFgyNTUxOSAvMlNwZnp6c2k1M2x0Zm5R\n      TndCSDBMcFhNZml6V0lCMDhGNk9zSlJNa1NzCk9tbEw0ZXNwVlBVNWY4cEZ3QVY0\n      MEVmajlYWFdITXFnZTBoQUkvcXFMamcKLS0tIExTRmRhL05vR295UVhpQXAxTzJl\n      VWNWR1ZTeGVjS0drQzBPdFo3SFJPekEKQNeCRUtk4Z1BLF992WbqTUUpgoxsZfhL\n      fBNBMSsTksIRVENtclN+/0Ja0nTpGAa/LkR7G9pg2cJIewTTX+RjiQ==\n      -----END AGE ENCRYPTED FILE-----\n  lastmodified: 2023-12-26T17:50:08Z\n  mac: ENC[AES256_GCM,data:DD0b27Jih05cCdjug/+al0cuOIef99UF/bCn0SJbBL593NOEJ4N3CS8nQKzH17umdCRq0pZzESp31FaIyMkifU3WJHDkFc6I8ZHzVr0t86JbCaCv8LiUH5YesMwo8VFhYDCL6+ODHVZ8IZ7Eu5X1SpwyisYWDBKG9G3+wols4dk=,iv:3bkd03+k2ereCrvcU9c9AHhDOBWlVyp/jnP8UONCL1o=,tag:h6HsMmNBz7zPIl4+B2BiUA==,type:str]\n  encrypted_regex: ^encrypted\n"
  plain := c!"a:\n  encrypted_1:\n    a: xxx\n    b: xxx\n  not_encrypted: aaa\nb: aaa\n"
  dataKey := [196, 220, 138, 110, 91, 71, 37, 216, 222, 46, 111, 85, 3, 106, 207, 103, 119, 22, 123, 8, 0, 196, 86, 134, 173, 249, 191, 243, 175, 215, 191, 103]

example : sopsEncryptedRegex.holds = true := by decide +kernel

/-- `age_unencrypted_suffix.yaml`, the plaintext of it, and the data key. -/
def sopsUnencryptedSuffix : Reference where
  text := c!"a:\n  b_unencrypted:\n    a: aaa\n    b: aaa\n    c:\n    - 123\n    - 456\n  c_encrypted: ENC[AES256_GCM,data:jJw9,iv:zSVPp6jWfJmAG63pkMyZC5wCSeQXJvJ1AgAPEzaxIGE=,tag:0wLbxHEaJ/VKS0NtwtD94g==,type:str]\nunencrypted_not: ENC[AES256_GCM,data:Bh/l,iv:ofV3kn2chqI58+EAUd8xnhwfc0YOeGTdzdfUOrPySqY=,tag:Mxn9s6H2bdFgmow3cuAVTA==,type:str]\nsops:\n  age:\n  - recipient: age1se5ghfycr4n8kcwc3qwf234ymvmr2lex2a99wh8gpfx97glwt9hqch4569\n    enc: |\n      -----BEGIN AGE ENCRYPTED FILE-----\n      YWdlLWVuY3J5cHRpb24ub3JnL3YxCi0+IFgyNTUxOSBiNnl2dXZWdTM0c1IwTlpy\n      TEp6clBlMkFqMExvU3FnM2gvbXZGTjN4RGxZCmhLWEJIcml5MUtXcHNSWkZOUjdE\n      dE12RUhJMVJTM1didmY1WVJSNXBqQ2sKLS0tIFlzLzh6TjN5ZS9FUk5pY3dwWjc3\n      M0k2WGZ4QXcvdERNczlzWTgrbEZoeE0K4lB0JlB7GSeG6MKjPEmn0abuMWH2m2ck\n      aLJqc9i2pXVqvMh3yHMehpumyrtwwNtWpFC6qzKTUejGA9ZOH26csQ==\n      -----END AGE ENCRYPTED FILE-----\n  lastmodified: 2023-12-26T17:57:37Z\n  mac: ENC[AES256_GCM,data:lMKBbtVlzwBziw+4hHH6OvxFDrAXfKKhk1n7egJe79JghYCnNjuPt7y3RT7NUGUcI72f6hnZJ7zjOBsNh3y3Uz0zrVH0NeHhCZ/RA4rAf3ohI7IZmZAY7BL2HSXaFlvYu3XmI5q3GUtqCW1gSUB2GmiFRAexSzWUMp8sjidicVU=,iv:6vUN0afSE9HjVQTpVIU7ciMcYFY6ylApcidym3rRKik=,tag:80x4wKw9b0cXv24PAUnakw==,type:str]\n  unencrypted_suffix: unencrypted\n"
  plain := c!"a:\n  b_unencrypted:\n    a: aaa\n    b: aaa\n    c:\n    - 123\n    - 456\n  c_encrypted: xxx\nunencrypted_not: xxx\n"
  dataKey := [99, 30, 47, 21, 219, 98, 163, 90, 219, 33, 100, 209, 49, 61, 149, 232, 80, 229, 201, 28, 22, 70, 6, 112, 13, 76, 169, 5, 25, 246, 44, 212]

example : sopsUnencryptedSuffix.holds = true := by decide +kernel

/-- `age_unencrypted_regex.yaml`, the plaintext of it, and the data key. -/
def sopsUnencryptedRegex : Reference where
  text := c!"a:\n  unencrypted_1:\n    a: aaa\n    b: aaa\n    c:\n    - 123\n    - 456\n  encrypted: ENC[AES256_GCM,data:Vzlk,iv:LtiNu9bmdPCkMU10QZIsbv5KsWyT1226AxekffIQn7A=,tag:ksvRksjuzhZoMQn4HuMqTw==,type:str]\nb: ENC[AES256_GCM,data:T2Uu,iv:szPRKOy84kCXRj8TzHOLjQrgeh2aNOiIPJ6Ad9Vr+KM=,tag:P0AjLRCAKpzY27bcX0BwcQ==,type:str]\nsops:\n  age:\n  - recipient: age1se5ghfycr4n8kcwc3qwf234ymvmr2lex2a99wh8gpfx97glwt9hqch4569\n    enc: |\n      -----BEGIN AGE ENCRYPTED FILE-----\n      YWdlLWVuY3J5cHRpb24ub3JnL3YxCi0+IFgyNTUxOSBKQzkwT0o4WGlTd1dnbmZs\n      R3VrZUROSWJUMlB5S21QTnUzWmFHUldWQkhnCnFzWC9BaUdqQnJKTTg1bWNJUlJ4\n      MkZjMW1sTHkrcXc1UU0vZWNhRkliRUkKLS0tIGNHSEJEaFBLUjRWTkJVMFM4MDkz\n      bDJjUkNlT1o2VVAzUzZIblFpN2xzT1kKmGNv9jRlp6pToTFX9VB5o4UHnUCDHO/Z\n      1UqgRH7a2bHRfahfPlNz1RLRPf5LNIY78cYrpb+nQvwd2Bi8Bt8V4Q==\n      -----END AGE ENCRYPTED FILE-----\n  lastmodified: 2023-12-26T17:55:23Z\n  mac: ENC[AES256_GCM,data:pGMoXNKXGTqm7Dwg47e9UuSc713L6J9WlxfpvyxRTCRCPXRdvLzT9IRBAsYpyo2aGmR1cPcUa0h0utKaXksJzpX1fGfmfhp2XJSOpRWVyYG9tP6z9c1lfwmmSaYg+aU8sq3EJj9rQV/4W6pBjjz1FegEwWGKIa4I7D0tsK01mGk=,iv:Sw26W38aX8j8YB6oX/BsOMx+pcb7Iz8giNOEsAul5Xc=,tag:L429OmMsS04FZW3FfsqTFQ==,type:str]\n  unencrypted_regex: ^unencrypted\n"
  plain := c!"a:\n  unencrypted_1:\n    a: aaa\n    b: aaa\n    c:\n    - 123\n    - 456\n  encrypted: xxx\nb: xxx\n"
  dataKey := [146, 16, 203, 9, 247, 21, 140, 249, 78, 169, 227, 118, 190, 179, 178, 0, 75, 243, 120, 55, 242, 210, 78, 19, 93, 151, 255, 168, 47, 109, 132, 66]

example : sopsUnencryptedRegex.holds = true := by decide +kernel

/-- `age_mac_only_encrypted.yaml`, the plaintext of it, and the data key. -/
def sopsMacOnlyEncrypted : Reference where
  text := c!"a_encrypted: ENC[AES256_GCM,data:IA46,iv:Ap9PrtKlfDVKOh/ExGZoXl8Qh85iQrL3iFtpRRurYv8=,tag:rEnl+xiPY5/v+7G/kQNkdQ==,type:str]\nb_unencrypted:\n  a: aaa\n  b:\n  - 123\n  - 456\nc_encrypted: ENC[AES256_GCM,data:+uP6,iv:wYcY2h8IGCn0CW23ZeqMct6SnGYQgmnW21iQL1rA03U=,tag:yeiq5D6oElI05nPihnWptQ==,type:str]\nd_unencrypted: aaa\nsops:\n  age:\n  - recipient: age1se5ghfycr4n8kcwc3qwf234ymvmr2lex2a99wh8gpfx97glwt9hqch4569\n    enc: |\n      -----BEGIN AGE ENCRYPTED FILE-----\n      YWdlLWVuY3J5cHRpb24ub3JnL3YxCi0+IFgyNTUxOSBPTXdHZnZ0SkhGZ3UydzlZ\n      RklUWXorWk1Kb3QwR29qWktqVHh1enV0RndvCit0cHQxRVBNTEdZSUxNYWJxT0Qz\n      eWRKOVJWcUQ3am1mZGF6UExhT2JqMmcKLS0tIFNZWG5ML1hVSWVVMG1QbGwxQmFh\n      UE1nSm01Q2lObzlwMDBmazJtWG9qSVEKdHkhmvoMB4JfSztonfNqUGM4PuQs+T16\n      9+A3/jb3bGQIbGcZfC8p7662USXWdAYDagLGYZVSf02xaEsjhlP5TQ==\n      -----END AGE ENCRYPTED FILE-----\n  lastmodified: 2023-12-27T11:13:48Z\n  mac: ENC[AES256_GCM,data:N/tCLvJawgY4qYPtu2D541yl8+YMRtrTETqAvkQih4EkR2N3YZB0D6XfcFxOHei6kDKEXc4HNPN5vwbaq8U5DeOGfSH00ZLdh85I1Ldh8Jbxnrtd+Kkti8chD2dZrD66c++oZb70z/jaM7+U37tOXM2Zy4SrRbIsUWjJ6LTY5Cs=,iv:NkvFXhw7M0DpksLeRgWdpPAxw1cx64rU+kbayQDMO3A=,tag:7uI8YXb3NPBuWtXIJWv86g==,type:str]\n  unencrypted_suffix: _unencrypted\n  mac_only_encrypted: true\n"
  plain := c!"a_encrypted: xxx\nb_unencrypted:\n  a: aaa\n  b:\n  - 123\n  - 456\nc_encrypted: xxx\nd_unencrypted: aaa\n"
  dataKey := [139, 158, 192, 166, 205, 140, 134, 95, 11, 217, 211, 84, 219, 149, 232, 89, 37, 35, 248, 55, 146, 32, 185, 195, 107, 70, 11, 46, 94, 16, 248, 196]

example : sopsMacOnlyEncrypted.holds = true := by decide +kernel

/-- The JSON file of the tests (format/json/mock.rs). -/
def mockText : Str := c!"{\n  \"hello\": \"ENC[AES256_GCM,data:3S1E9am/,iv:WUQoQTrRXw/tUgwpmSG69xWtd5dVMfe8qUly1VB8ucM=,tag:nQUDkuh0OR1cjR5hGC5jOw==,type:str]\",\n  \"nested_map\": {\n    \"null_key\": null,\n    \"array\": [\n      \"ENC[AES256_GCM,data:ANbeNrGp,iv:PRWGCPdOttPr5dlzT9te7WWCZ90J7+CvfY1vp60aADM=,tag:PvSLx4pLT5zRKOU0df8Xlg==,type:str]\",\n      {\n        \"nested_map_in_array\": {\n          \"integer\": \"ENC[AES256_GCM,data:qTW5qw==,iv:ugMxvR8YPwDgn2MbBpDX0lpCqzJY3GerhbA5jEKUbwE=,tag:d8utfA76C4XPzJyDfgE4Pw==,type:int]\"\n        }\n      },\n      {\n        \"float\": \"ENC[AES256_GCM,data:/MTg0fCennyN8g==,iv:+/8+Ljm+cls7BbDYZnlg6NVFkrkw4GkEfWU2aGW57qE=,tag:26uMp2JmVAckySIaL2BLCg==,type:float]\"\n      }\n    ]\n  },\n  \"booleans\": [\n    \"ENC[AES256_GCM,data:bCdz2A==,iv:8kD+h1jClyVHBj9o2WZuAkjk+uD6A2lgNpcGljpQEhk=,tag:u3/fktl5HfFrVLERVvLRGw==,type:bool]\",\n    \"ENC[AES256_GCM,data:SgBh7wY=,iv:0s9Q9pQWbsZm2yHsmFalCzX0IqNb6ZqeY6QQYCWc+qU=,tag:OZb76BWCKbDLbcil4c8fYA==,type:bool]\"\n  ],\n  \"escape_unencrypted\": \"plaintext\",\n  \"sops\": {\n    \"kms\": [\n      {\n        \"aws_profile\": \"default\",\n        \"arn\": \"arn:aws:kms:eu-north-1:822284028627:key/a219f9b1-f371-466a-9143-7adff993aa05\",\n        \"created_at\": \"2023-12-28T21:18:02Z\",\n        \"enc\": \"AQICAHiB4ozqhuEpHKVV+bXVXqxUTHq97nhkmOnQqSGLV5d0fAE5vjB9Tx8f5juCR3DPHGWZAAAAfjB8BgkqhkiG9w0BBwagbzBtAgEAMGgGCSqGSIb3DQEHATAeBglghkgBZQMEAS4wEQQM9th1qt9YvZ2Vgu3TAgEQgDv7GInqnuJJno5ikZvMXQB7c4FLmqAqiuXAUP1NkYUn1OsdWuwdcH6nDKcn6GJ/ddBElY/Cd1tXqwrk7A==\"\n      }\n    ],\n    \"age\": [\n      {\n        \"recipient\": \"age1se5ghfycr4n8kcwc3qwf234ymvmr2lex2a99wh8gpfx97glwt9hqch4569\",\n        \"enc\": \"-----BEGIN AGE ENCRYPTED FILE-----\\nYWdlLWVuY3J5cHRpb24ub3JnL3YxCi0+IFgyNTUxOSBKeE9VRHJpNmc4Z1NFeDd6\\nL3cybjRHblYvaFUxbk9JZDZ4RFdENGpiNmhZCnZCRXRNSlRZeno0SDlJWXdhT0xl\\nY1BlMzcyYUdVWFJ6WEVMTlRRaDRGbFUKLS0tIGc0V3gzU043MzBUd01BVTVKTEwr\\nazRyUldHUXo0cTV2YlZWa2pwcWFweGcKQdFW597WOM0bYfycoA2A0JxjKlrka+lc\\nMLuTri7QMM+g8yXcjneEGxjobGIqnvARlzDwcnFMxBoZ5/KRjMipXA==\\n-----END AGE ENCRYPTED FILE-----\\n\"\n      }\n    ],\n    \"lastmodified\": \"2023-12-27T20:37:05Z\",\n    \"mac\": \"ENC[AES256_GCM,data:tPxLRxcw3/FFDqza8H5Cie3MTFVI8qBXte8qB0lAO/OQMRjVPPj5UJLC1jMUAlHW1KInxqSRhGkSLL8sJjg4wKeY8/yxaDbYqLKkw7bxk7yoFUktNn+D9Tv44AoroB/2715GhtDSwM80mDb4pnD4aj1k3/mC7E/XH7aArCVsl2s=,iv:1FrAknhJizYRQ588m6Mgn5lRlMxgWBOY3Ka6RvS2vCI=,tag:GiQkczeDmBKIjswzwfeKvA==,type:str]\",\n    \"unencrypted_suffix\": \"_unencrypted\"\n  }\n}"

/-- Its plaintext. -/
def mockPlain : Str := c!"{\n  \"hello\": \"world!\",\n  \"nested_map\": {\n    \"null_key\": null,\n    \"array\": [\n      \"string\",\n      {\n        \"nested_map_in_array\": {\n          \"integer\": 1234\n        }\n      },\n      {\n        \"float\": 1234.56789\n      }\n    ]\n  },\n  \"booleans\": [\n    true,\n    false\n  ],\n  \"escape_unencrypted\": \"plaintext\"\n}"

/-- Its data key (data_key.rs:63). -/
def mockDataKey : Bytes :=
  [254, 79, 93, 103, 195, 165, 169, 238, 35, 187, 236, 95, 222, 243, 40, 26, 130, 128, 59, 176, 15, 195, 55, 93, 129, 212, 57,
    80, 15, 181, 72, 114]

/-- It is read, decrypted, encrypted again, and written (file/core.rs:189-260): the texts are those of the tests. -/
def mockHolds : Bool :=
  let E := env c!"-----BEGIN AGE ENCRYPTED FILE-----\nYWdlLWVuY3J5cHRpb24ub3JnL3YxCi0+IFgyNTUxOSBKeE9VRHJpNmc4Z1NFeDd6\nL3cybjRHblYvaFUxbk9JZDZ4RFdENGpiNmhZCnZCRXRNSlRZeno0SDlJWXdhT0xl\nY1BlMzcyYUdVWFJ6WEVMTlRRaDRGbFUKLS0tIGc0V3gzU043MzBUd01BVTVKTEwr\nazRyUldHUXo0cTV2YlZWa2pwcWFweGcKQdFW597WOM0bYfycoA2A0JxjKlrka+lc\nMLuTri7QMM+g8yXcjneEGxjobGIqnvARlzDwcnFMxBoZ5/KRjMipXA==\n-----END AGE ENCRYPTED FILE-----\n" mockDataKey
  match EncFile.ofText serdeFloats.ops { Toy.docOps with A := age } aesGcm mockText with
  | none => false
  | some f => f.toText serdeFloats.ops aesGcm == mockText &&
    match f.decryptAndSave DocFormat.json.F E with
    | .error _ => false
    | .ok (g, p) => serdeFloats.ops.render g.map == mockPlain &&
      match g.encryptSaved DocFormat.json.F E p 0 with
      | .error _ => false
      | .ok (f', i) => i == 0 && f'.toText serdeFloats.ops aesGcm == mockText

example : mockHolds = true := by decide +kernel

/-- The YAML file of the tests (format/yaml/mock.rs). -/
def mockYaml : Str := c!"hello: ENC[AES256_GCM,data:3S1E9am/,iv:WUQoQTrRXw/tUgwpmSG69xWtd5dVMfe8qUly1VB8ucM=,tag:nQUDkuh0OR1cjR5hGC5jOw==,type:str]\nnested_map:\n  null_key: null\n  array:\n  - ENC[AES256_GCM,data:ANbeNrGp,iv:PRWGCPdOttPr5dlzT9te7WWCZ90J7+CvfY1vp60aADM=,tag:PvSLx4pLT5zRKOU0df8Xlg==,type:str]\n  - nested_map_in_array:\n      integer: ENC[AES256_GCM,data:qTW5qw==,iv:ugMxvR8YPwDgn2MbBpDX0lpCqzJY3GerhbA5jEKUbwE=,tag:d8utfA76C4XPzJyDfgE4Pw==,type:int]\n  - float: ENC[AES256_GCM,data:/MTg0fCennyN8g==,iv:+/8+Ljm+cls7BbDYZnlg6NVFkrkw4GkEfWU2aGW57qE=,tag:26uMp2JmVAckySIaL2BLCg==,type:float]\nbooleans:\n- ENC[AES256_GCM,data:bCdz2A==,iv:8kD+h1jClyVHBj9o2WZuAkjk+uD6A2lgNpcGljpQEhk=,tag:u3/fktl5HfFrVLERVvLRGw==,type:bool]\n- ENC[AES256_GCM,data:SgBh7wY=,iv:0s9Q9pQWbsZm2yHsmFalCzX0IqNb6ZqeY6QQYCWc+qU=,tag:OZb76BWCKbDLbcil4c8fYA==,type:bool]\nescape_unencrypted: plaintext\nsops:\n  kms:\n  - aws_profile: default\n    arn: arn:aws:kms:eu-north-1:822284028627:key/a219f9b1-f371-466a-9143-7adff993aa05\n    created_at: 2023-12-28T21:18:02Z\n    enc: AQICAHiB4ozqhuEpHKVV+bXVXqxUTHq97nhkmOnQqSGLV5d0fAE5vjB9Tx8f5juCR3DPHGWZAAAAfjB8BgkqhkiG9w0BBwagbzBtAgEAMGgGCSqGSIb3DQEHATAeBglghkgBZQMEAS4wEQQM9th1qt9YvZ2Vgu3TAgEQgDv7GInqnuJJno5ikZvMXQB7c4FLmqAqiuXAUP1NkYUn1OsdWuwdcH6nDKcn6GJ/ddBElY/Cd1tXqwrk7A==\n  age:\n  - recipient: age1se5ghfycr4n8kcwc3qwf234ymvmr2lex2a99wh8gpfx97glwt9hqch4569\n    enc: |\n      -----BEGIN AGE ENCRYPTED FILE-----\n      YWdlLWVuY3J5cHRpb24ub3JnL3YxCi0+IFgyNTUxOSBKeE9VRHJpNmc4Z1NFeDd6\n      L3cybjRHblYvaFUxbk9JZDZ4RFdENGpiNmhZCnZCRXRNSlRZeno0SDlJWXdhT0xl\n      Y1BlMzcyYUdVWFJ6WEVMTlRRaDRGbFUKLS0tIGc0V3gzU043MzBUd01BVTVKTEwr\n      azRyUldHUXo0cTV2YlZWa2pwcWFweGcKQdFW597WOM0bYfycoA2A0JxjKlrka+lc\n      MLuTri7QMM+g8yXcjneEGxjobGIqnvARlzDwcnFMxBoZ5/KRjMipXA==\n      -----END AGE ENCRYPTED FILE-----\n  lastmodified: 2023-12-27T20:37:05Z\n  mac: ENC[AES256_GCM,data:tPxLRxcw3/FFDqza8H5Cie3MTFVI8qBXte8qB0lAO/OQMRjVPPj5UJLC1jMUAlHW1KInxqSRhGkSLL8sJjg4wKeY8/yxaDbYqLKkw7bxk7yoFUktNn+D9Tv44AoroB/2715GhtDSwM80mDb4pnD4aj1k3/mC7E/XH7aArCVsl2s=,iv:1FrAknhJizYRQ588m6Mgn5lRlMxgWBOY3Ka6RvS2vCI=,tag:GiQkczeDmBKIjswzwfeKvA==,type:str]\n  unencrypted_suffix: _unencrypted\n"

/-- Its plaintext. -/
def mockYamlPlain : Str := c!"hello: world!\nnested_map:\n  null_key: null\n  array:\n  - string\n  - nested_map_in_array:\n      integer: 1234\n  - float: 1234.56789\nbooleans:\n- true\n- false\nescape_unencrypted: plaintext\n"

/-- It is read, decrypted, encrypted again, and written: the texts are those of the tests. -/
def mockYamlHolds : Bool :=
  let E := env c!"-----BEGIN AGE ENCRYPTED FILE-----\nYWdlLWVuY3J5cHRpb24ub3JnL3YxCi0+IFgyNTUxOSBKeE9VRHJpNmc4Z1NFeDd6\nL3cybjRHblYvaFUxbk9JZDZ4RFdENGpiNmhZCnZCRXRNSlRZeno0SDlJWXdhT0xl\nY1BlMzcyYUdVWFJ6WEVMTlRRaDRGbFUKLS0tIGc0V3gzU043MzBUd01BVTVKTEwr\nazRyUldHUXo0cTV2YlZWa2pwcWFweGcKQdFW597WOM0bYfycoA2A0JxjKlrka+lc\nMLuTri7QMM+g8yXcjneEGxjobGIqnvARlzDwcnFMxBoZ5/KRjMipXA==\n-----END AGE ENCRYPTED FILE-----\n" mockDataKey
  match EncFile.ofText blockLayout.ops { Toy.docOps with A := age } aesGcm mockYaml with
  | none => false
  | some f => f.toText blockLayout.ops aesGcm == mockYaml &&
    match f.decryptAndSave DocFormat.yaml.F E with
    | .error _ => false
    | .ok (g, p) => blockLayout.ops.render g.map == mockYamlPlain &&
      match g.encryptSaved DocFormat.yaml.F E p 0 with
      | .error _ => false
      | .ok (f', i) => i == 0 && f'.toText blockLayout.ops aesGcm == mockYaml

example : mockYamlHolds = true := by decide +kernel

/-- The TOML file of the tests (format/toml/mock.rs). -/
def mockToml : Str := c!"hello = \"ENC[AES256_GCM,data:3S1E9am/,iv:WUQoQTrRXw/tUgwpmSG69xWtd5dVMfe8qUly1VB8ucM=,tag:nQUDkuh0OR1cjR5hGC5jOw==,type:str]\"\nbooleans = [\n    \"ENC[AES256_GCM,data:bCdz2A==,iv:8kD+h1jClyVHBj9o2WZuAkjk+uD6A2lgNpcGljpQEhk=,tag:u3/fktl5HfFrVLERVvLRGw==,type:bool]\",\n    \"ENC[AES256_GCM,data:SgBh7wY=,iv:0s9Q9pQWbsZm2yHsmFalCzX0IqNb6ZqeY6QQYCWc+qU=,tag:OZb76BWCKbDLbcil4c8fYA==,type:bool]\",\n]\nescape_unencrypted = \"plaintext\"\n\n[nested_map]\nnull_key = \"null\"\narray = [\n    \"ENC[AES256_GCM,data:ANbeNrGp,iv:PRWGCPdOttPr5dlzT9te7WWCZ90J7+CvfY1vp60aADM=,tag:PvSLx4pLT5zRKOU0df8Xlg==,type:str]\",\n    { nested_map_in_array = { integer = \"ENC[AES256_GCM,data:qTW5qw==,iv:ugMxvR8YPwDgn2MbBpDX0lpCqzJY3GerhbA5jEKUbwE=,tag:d8utfA76C4XPzJyDfgE4Pw==,type:int]\" } },\n    { float = \"ENC[AES256_GCM,data:/MTg0fCennyN8g==,iv:+/8+Ljm+cls7BbDYZnlg6NVFkrkw4GkEfWU2aGW57qE=,tag:26uMp2JmVAckySIaL2BLCg==,type:float]\" },\n]\n\n[sops]\nlastmodified = \"2023-12-27T20:37:05Z\"\nmac = \"ENC[AES256_GCM,data:tPxLRxcw3/FFDqza8H5Cie3MTFVI8qBXte8qB0lAO/OQMRjVPPj5UJLC1jMUAlHW1KInxqSRhGkSLL8sJjg4wKeY8/yxaDbYqLKkw7bxk7yoFUktNn+D9Tv44AoroB/2715GhtDSwM80mDb4pnD4aj1k3/mC7E/XH7aArCVsl2s=,iv:1FrAknhJizYRQ588m6Mgn5lRlMxgWBOY3Ka6RvS2vCI=,tag:GiQkczeDmBKIjswzwfeKvA==,type:str]\"\nunencrypted_suffix = \"_unencrypted\"\n\n[[sops.kms]]\naws_profile = \"default\"\narn = \"arn:aws:kms:eu-north-1:822284028627:key/a219f9b1-f371-466a-9143-7adff993aa05\"\ncreated_at = \"2023-12-28T21:18:02Z\"\nenc = \"AQICAHiB4ozqhuEpHKVV+bXVXqxUTHq97nhkmOnQqSGLV5d0fAE5vjB9Tx8f5juCR3DPHGWZAAAAfjB8BgkqhkiG9w0BBwagbzBtAgEAMGgGCSqGSIb3DQEHATAeBglghkgBZQMEAS4wEQQM9th1qt9YvZ2Vgu3TAgEQgDv7GInqnuJJno5ikZvMXQB7c4FLmqAqiuXAUP1NkYUn1OsdWuwdcH6nDKcn6GJ/ddBElY/Cd1tXqwrk7A==\"\n\n[[sops.age]]\nrecipient = \"age1se5ghfycr4n8kcwc3qwf234ymvmr2lex2a99wh8gpfx97glwt9hqch4569\"\nenc = \"\"\"\n-----BEGIN AGE ENCRYPTED FILE-----\nYWdlLWVuY3J5cHRpb24ub3JnL3YxCi0+IFgyNTUxOSBKeE9VRHJpNmc4Z1NFeDd6\nL3cybjRHblYvaFUxbk9JZDZ4RFdENGpiNmhZCnZCRXRNSlRZeno0SDlJWXdhT0xl\nY1BlMzcyYUdVWFJ6WEVMTlRRaDRGbFUKLS0tIGc0V3gzU043MzBUd01BVTVKTEwr\nazRyUldHUXo0cTV2YlZWa2pwcWFweGcKQdFW597WOM0bYfycoA2A0JxjKlrka+lc\nMLuTri7QMM+g8yXcjneEGxjobGIqnvARlzDwcnFMxBoZ5/KRjMipXA==\n-----END AGE ENCRYPTED FILE-----\n\"\"\"\n"

/-- Its plaintext. -/
def mockTomlPlain : Str := c!"hello = \"world!\"\nbooleans = [\n    true,\n    false,\n]\nescape_unencrypted = \"plaintext\"\n\n[nested_map]\nnull_key = \"null\"\narray = [\n    \"string\",\n    { nested_map_in_array = { integer = 1234 } },\n    { float = 1234.56789 },\n]\n"

/-- It is read and written, and so is its plaintext: the texts are those of the tests. -/
def mockTomlHolds : Bool :=
  let S := rustScalars fun _ => none
  (match EncFile.ofText S.ops { Toy.docOps with A := age } aesGcm mockToml with
    | none => false
    | some f => f.toText S.ops aesGcm == mockToml) &&
  match S.ops.parse mockTomlPlain with
  | none => false
  | some m => S.ops.render m == mockTomlPlain && match Toml.toMap m with
    | .error _ => false
    | .ok m => S.ops.render (Toml.ofMap Toml.ofValue m) == mockTomlPlain

example : mockTomlHolds = true := by decide +kernel

/-- The MAC of the tests (mac/decrypted.rs: `mock_display`). -/
example : Mac.compute sha512 (fun _ _ => false) { macOnlyEncrypted := false, resolved := Resolved.ofConfig none }
    [(c!"hello", .leaf (.string c!"world!")),
     (c!"nested_map", .map [(c!"null_key", .null),
       (c!"array", .seq [.leaf (.string c!"string"),
         .map [(c!"nested_map_in_array", .map [(c!"integer", .leaf (.integer 1234))])],
         .map [(c!"float", .leaf (.float c!"1234.56789"))]])]),
     (c!"booleans", .seq [.leaf (.boolean true), .leaf (.boolean false)]),
     (c!"escape_unencrypted", .leaf (.string c!"plaintext"))] =
    utf8 c!"813B9769827F62978BFB2703A78B14371B1B97CA4EC64056026B2F130C9CDCA7701AE23025E61BA973DA79E01F31F04A63F1C427AEB595D9671DE608CBC89FF9" := by
  decide +kernel

/-- The values of the tests (map/value/core.rs:140-177). -/
def valueHolds (text path : Str) (v : Value) : Bool :=
  match EncValue.parse aesGcm text with
  | .error _ => false
  | .ok e => Value.encrypt aesGcm e.nonce mockDataKey path v == some e && e.decrypt aesGcm f64Floats mockDataKey path == .ok v

example : valueHolds c!"ENC[AES256_GCM,data:3S1E9am/,iv:WUQoQTrRXw/tUgwpmSG69xWtd5dVMfe8qUly1VB8ucM=,tag:nQUDkuh0OR1cjR5hGC5jOw==,type:str]" c!"hello:" (.string c!"world!") = true := by decide +kernel

example : valueHolds c!"ENC[AES256_GCM,data:0wTZfQ==,iv:BpeJcPsLzvRLyGOAyA/mM3nGhg3zIFEcpyfB5jJbul8=,tag:+OGu7RruuYSwMWZa1yWrqA==,type:bool]" c!"example_booleans:" (.boolean true) = true := by decide +kernel

example : valueHolds c!"ENC[AES256_GCM,data:4EgnUYs=,iv:g0r5WzzWt/Ln25wlEescMgrTg88JTJhlOdI0g/xVahk=,tag:zhv8xxJULpXIWdzm5+C0FA==,type:bool]" c!"example_booleans:" (.boolean false) = true := by decide +kernel

example : valueHolds c!"ENC[AES256_GCM,data:lDJCrw==,iv:P8EXxNCPeYp5VBL0mCAxjQjGtvywbBFoQKWye2IK1Gc=,tag:56HP04AzkYfj+pmYIbijSA==,type:int]" c!"example_integer:" (.integer 1234) = true := by decide +kernel

example : valueHolds c!"ENC[AES256_GCM,data:fglPlT+e9ACWrA==,iv:pefOFnMThS6qICGrLuai+rSBtrmliGWdqJrXzcl2qAo=,tag:tHVQiwreFZurqiroPCIXHw==,type:float]" c!"example_float:" (.float c!"1234.56789") = true := by decide +kernel

end Rops.Conformance
