/-!
The two tables of well-known packages: /repo/horus_manager/src/source_resolver.rs:342-651 and 653-894, word by word.
-/

namespace Horus.PkgSource

/-- source_resolver.rs:346-651 `KNOWN_CRATES`. -/
def crateNames : List String := [
  "actix_rt", "actix_web", "aes", "ahash", "aho_corasick", "anstream", "anstyle", "anyhow", "approx", "arc_swap", "arrayvec", "ascii",
  "async_channel", "async_io", "async_lock", "async_process", "async_recursion", "async_std", "async_stream", "async_trait", "atoi", "auto_impl",
  "autocfg", "axum", "backtrace", "base64", "bincode", "bit_set", "bit_vec", "bitflags", "bitvec", "blake2", "blake3", "block_buffer", "bollard",
  "bstr", "bumpalo", "bytemuck", "byteorder", "bytes", "camino", "cargo_metadata", "cc", "cfg_if", "chrono", "ciborium", "clap", "clap_builder",
  "clap_derive", "clap_lex", "color_eyre", "colorchoice", "colored", "console", "const_oid", "core_foundation", "cpufeatures", "crc32fast",
  "criterion", "crossbeam", "crossbeam_channel", "crossbeam_deque", "crossbeam_epoch", "crossbeam_queue", "crossbeam_utils", "crypto_common", "csv",
  "ctor", "darling", "dashmap", "data_encoding", "der", "deranged", "derive_builder", "derive_more", "diesel", "digest", "dirs", "dirs_next",
  "dotenv", "downcast_rs", "either", "embed_resource", "encoding_rs", "env_logger", "equivalent", "erased_serde", "errno", "eyre", "fastrand",
  "filetime", "flate2", "flume", "fnv", "form_urlencoded", "futures", "futures_channel", "futures_core", "futures_executor", "futures_io",
  "futures_lite", "futures_macro", "futures_sink", "futures_task", "futures_util", "generic_array", "getrandom", "glob", "globset", "h2", "half",
  "hashbrown", "heck", "hex", "hmac", "home", "http", "http_body", "httparse", "humantime", "hyper", "hyper_rustls", "hyper_tls", "hyper_util",
  "iana_time_zone", "idna", "image", "indexmap", "indicatif", "insta", "ipnet", "is_terminal", "itertools", "itoa", "js_sys", "lazy_static", "libc",
  "libloading", "libm", "linux_raw_sys", "lock_api", "log", "lru", "matrixmultiply", "memchr", "memmap2", "memoffset", "mime", "miniz_oxide", "mio",
  "nalgebra", "nix", "nom", "notify", "num", "num_bigint", "num_complex", "num_cpus", "num_derive", "num_integer", "num_rational", "num_traits",
  "object", "once_cell", "opaque_debug", "openssl", "openssl_sys", "ordered_float", "os_str_bytes", "parking", "parking_lot", "parking_lot_core",
  "paste", "pem", "percent_encoding", "petgraph", "pin_project", "pin_project_lite", "pin_utils", "pkg_config", "polling", "portable_atomic",
  "ppv_lite86", "pretty_assertions", "proc_macro2", "proptest", "prost", "prost_build", "prost_derive", "prost_types", "quick_error", "quick_xml",
  "quote", "r2d2", "rand", "rand_chacha", "rand_core", "rand_distr", "rapier2d", "rapier3d", "ratatui", "rayon", "rayon_core", "redis", "regex",
  "regex_automata", "regex_syntax", "reqwest", "ring", "ron", "rsa", "rstest", "rusqlite", "rust_decimal", "rustc_hash", "rustix", "rustls",
  "rustls_pemfile", "rustls_webpki", "ryu", "same_file", "schannel", "scopeguard", "seahash", "semver", "serde", "serde_bytes", "serde_derive",
  "serde_json", "serde_repr", "serde_urlencoded", "serde_with", "serde_yaml", "sha1", "sha2", "shlex", "signal_hook", "signal_hook_registry",
  "simba", "siphasher", "slab", "smallvec", "smol_str", "socket2", "sqlx", "strsim", "subtle", "syn", "tar", "tempfile", "termcolor",
  "terminal_size", "textwrap", "thiserror", "time", "tinyvec", "tokio", "tokio_macros", "tokio_native_tls", "tokio_rustls", "tokio_stream",
  "tokio_tungstenite", "tokio_util", "toml", "toml_edit", "tonic", "tonic_build", "tower", "tower_http", "tower_layer", "tower_service", "tracing",
  "tracing_appender", "tracing_core", "tracing_log", "tracing_subscriber", "tree_sitter", "typenum", "unicase", "unicode_bidi", "unicode_ident",
  "unicode_normalization", "unicode_segmentation", "unicode_width", "unicode_xid", "url", "utf8parse", "uuid", "walkdir", "want", "warp", "wasi",
  "wasm_bindgen", "wasm_bindgen_futures", "which", "winapi", "windows", "windows_sys", "winnow", "yansi", "zerocopy", "zeroize", "zip", "zstd"]

/-- source_resolver.rs:657-894 `KNOWN_PYPI`. -/
def pypiNames : List String := [
  "aiofiles", "aiohttp", "aiosignal", "anyio", "argparse", "async_timeout", "attrs", "beautifulsoup4", "black", "bleach", "blinker", "bokeh",
  "boto3", "botocore", "build", "cachetools", "catkin_pkg", "celery", "certifi", "cffi", "charset_normalizer", "click", "cloudpickle", "colcon_core",
  "colorama", "contourpy", "coverage", "cryptography", "cycler", "cython", "dask", "dataclasses_json", "decorator", "defusedxml", "deprecated",
  "dill", "distlib", "docker", "docutils", "exceptiongroup", "executing", "fastapi", "filelock", "flake8", "flask", "fonttools", "frozenlist",
  "fsspec", "google_api_core", "google_auth", "google_cloud_storage", "greenlet", "grpcio", "gunicorn", "gym", "gymnasium", "h11", "h5py",
  "httpcore", "httptools", "httpx", "huggingface_hub", "humanize", "idna", "imageio", "importlib_metadata", "importlib_resources", "iniconfig",
  "ipykernel", "ipython", "ipywidgets", "isort", "jax", "jaxlib", "jinja2", "joblib", "json5", "jsonschema", "jupyter", "jupyter_client",
  "jupyter_core", "jupyterlab", "keras", "kiwisolver", "lark", "lxml", "markupsafe", "marshmallow", "matplotlib", "mccabe", "ml_dtypes",
  "more_itertools", "moviepy", "mpmath", "msgpack", "mujoco", "multidict", "mypy", "mypy_extensions", "nbconvert", "networkx", "nltk", "nodeenv",
  "notebook", "numba", "numpy", "oauthlib", "onnx", "onnxruntime", "open3d", "opencv_python", "opencv_python_headless", "openpyxl", "opt_einsum",
  "orjson", "packaging", "pandas", "paramiko", "pathlib2", "pathspec", "pbr", "pep517", "pillow", "pip", "pipenv", "platformdirs", "plotly",
  "pluggy", "poetry", "polars", "pre_commit", "prometheus_client", "prompt_toolkit", "protobuf", "psutil", "psycopg2", "pure_eval", "py", "pyarrow",
  "pybind11", "pybullet", "pycodestyle", "pycparser", "pydantic", "pydantic_core", "pyflakes", "pygments", "pyjwt", "pylint", "pymongo", "pynacl",
  "pyopenssl", "pyparsing", "pyperclip", "pyqt5", "pyright", "pyserial", "pytest", "pytest_cov", "python_dateutil", "python_dotenv",
  "pytorch_lightning", "pytz", "pyyaml", "pyzmq", "rclpy", "redis", "regex", "requests", "rich", "rosbag2_py", "rospkg", "rpyc", "rsa",
  "ruamel_yaml", "ruff", "s3transfer", "safetensors", "scikit_image", "scikit_learn", "scipy", "seaborn", "selenium", "sentry_sdk", "setuptools",
  "shapely", "simplejson", "six", "sniffio", "soupsieve", "sphinx", "sqlalchemy", "stack_data", "starlette", "stevedore", "sympy", "tabulate",
  "tenacity", "tensorboard", "tensorflow", "termcolor", "threadpoolctl", "tokenizers", "tomli", "tomlkit", "toolz", "torch", "torchvision",
  "tornado", "tqdm", "traitlets", "transformers", "trimesh", "trio", "twine", "typer", "types_requests", "typing_extensions", "ujson", "urllib3",
  "uvicorn", "uvloop", "virtualenv", "wandb", "watchdog", "wcwidth", "websocket_client", "websockets", "werkzeug", "wheel", "wrapt", "xarray",
  "xlsxwriter", "xmltodict", "yarl", "zipp"]

end Horus.PkgSource
